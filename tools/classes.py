"""Write lean/Verif/Model/Classes.lean from the sources in /repo (read as text)."""
import glob
import re
import sys
import textwrap

SRC = sorted(glob.glob('/repo/src/*.cxx') + glob.glob('/repo/src/*/*.cxx'))
INC = glob.glob('/repo/include/*.h') + glob.glob('/repo/include/*/*.h')
PARAM = re.compile(r'add_(optional_)?parameter<\s*(.*?)\s*>\s*\(\s*"([^"]*)"\s*(?:,(.*?))?\)\s*;', re.S)
KINDS = {'double': 'double', 'int': 'int', 'bool': 'bool', 'std::vector<double>': 'vecDouble', 'NEMLObject': 'object',
         'std::vector<NEMLObject>': 'vecObject', 'std::string': 'string', 'list_systems': 'slip', 'size_t': 'sizeType',
         'std::vector<size_t>': 'vecSizeType', 'twin_systems': 'twin', 'std::vector<std::size_t>': 'vecSizeType'}
# The internal variables of walker.cxx: their base is a template and reads the name.
NAMED = {'ConstantIsotropicHardening', 'WalkerIsotropicHardening', 'ConstantDragStress', 'WalkerDragStress',
         'FAKinematicHardening', 'WalkerKinematicHardening'}


def line(s, m):
    return s[:m.start()].count('\n') + 1


def kind(t):
    return KINDS[t.replace(' ', '')]


def default_kind(e):
    """The slot the default is stored in."""
    e = e.strip()
    if e == '{}':
        return 'none'
    for pat, k in [(r'"|std::string\(', 'string'), (r'(true|false)$', 'bool'),
                   (r'(default_scaling|make_constant|zero_orientation)\(', 'object'), (r'list_systems\(\)$', 'slip'),
                   (r'twin_systems\(\)$', 'twin'), (r'size_t\(', 'sizeType'), (r'std::vector<double>\(\)$', 'vecDouble'),
                   (r'std::vector<size_t>\(\)$', 'vecSizeType'), (r'-?\d+$', 'int')]:
        if re.match(pat, e):
            return 'some .' + k
    float(e)
    return 'some .double'


wraps, decl, ctor, bases = {}, {}, {}, {}
for f in SRC:
    s = open(f).read()
    if f.endswith('_wrap.cxx'):
        ms = list(re.finditer(r'create_object_python<\s*(\w+)\s*>\s*\(\s*args\s*,\s*kwargs\s*,\s*\{(.*?)\}\s*\)', s, re.S))
        assert len(ms) == s.count('create_object_python<'), f
        for m in ms:
            assert m.group(1) not in wraps
            wraps[m.group(1)] = (f[6:], line(s, m), re.findall(r'"([^"]*)"', m.group(2)))
for ending in [r'\n\}', r'return ']:
    for f in SRC:
        s = open(f).read()
        for m in re.finditer(r'ParameterSet\s+(\w+)::parameters\(\)\s*\{(.*?)' + ending, s, re.S):
            if m.group(1) in decl:
                continue
            body = m.group(2)
            ps = [(q.group(3), q.group(2), bool(q.group(1)), (q.group(4) or '').strip()) for q in PARAM.finditer(body)]
            assert len(ps) == len(re.findall(r'add_(?:optional_)?parameter<', body)), m.group(1)
            decl[m.group(1)] = (f[6:], line(s, m), ps)
for f in INC:
    s = open(f).read()
    for m in re.finditer(r'class\s+(?:NEML_EXPORT\s+)?(\w+)\s*:\s*(?:public|virtual public)?\s*([^{]*)\{', s):
        bases[m.group(1)] = re.findall(r'(\w+)', re.sub(r'public|virtual', '', m.group(2)))
for f in SRC:
    s = open(f).read()
    for m in re.finditer(r'(\w+)::\1\(\s*ParameterSet\s*&\s*(\w+)\s*\)\s*:?(.*?)\n\}', s, re.S):
        ctor[m.group(1)] = (line(s, m), m.group(3))


def reads(c, seen=()):
    r = []
    if c in ctor:
        body = re.sub(r'prefix\(("[^"]*")\)', r'\1', ctor[c][1])
        for k, t, n in re.findall(r'get_(object_parameter_vector|object_parameter|parameter)<\s*(.*?)\s*>\s*\(\s*"([^"]*)"',
                                  body, re.S):
            r.append((n, {'object_parameter': 'object', 'object_parameter_vector': 'vecObject'}.get(k) or kind(t)))
    for b in bases.get(c, []):
        if b not in seen and b != c:
            r += reads(b, seen + (c,))
        if b == 'InternalVariable':
            r.append(('name', 'string'))
    return list(dict.fromkeys(r))


def quote(x):
    return '"' + x + '"'


def wrap(s, width=118, sep='\n    '):
    return sep.join(textwrap.wrap(s, width, break_long_words=False, break_on_hyphens=False))


out = '''import Verif.Model.Objects

/-!
# The classes that Python can make

For every class with a constructor in Python: the parameters it declares, with the C++ type of the default, the names of the
positional arguments in the binding, and the parameters its constructor and those of its bases read, with the type they are
read as. Extracted from the sources; each entry cites `parameters()`, the binding and the constructor. `CrystalOrientation`
has no such binding.
-/

namespace Neml.PyCreate

open Objects

/-- A declared parameter: `add_parameter` (no default) or `add_optional_parameter` with the slot its default is stored in
(`some none` for `{}`, which writes none) (objects.h:178-200). -/
structure Param where
  name : String
  kind : Kind
  dflt : Option (Option Kind)
  deriving DecidableEq

/-- A class. -/
structure Cls where
  name : String
  params : List Param
  pos : List String
  reads : List (String × Kind)

'''
names = []
for c, (f, l, ps) in decl.items():
    if c not in wraps:
        print('no binding', c, file=sys.stderr)
        continue
    wf, wl, pos = wraps[c]
    rd = reads(c) + ([('name', 'string')] if c in NAMED else [])
    cite = f"{f[4:]}:{l}, {wf[4:]}:{wl}"
    if c in ctor:
        cite += f", {ctor[c][0]}" + (' and internalvariable.h:94' if c in NAMED else '')
    row = []
    for n, t, opt, e in ps:
        d = 'none' if not opt else 'some none' if default_kind(e) == 'none' else f'some ({default_kind(e)})'
        row.append(f'⟨{quote(n)}, .{kind(t)}, {d}⟩')
    names.append('c' + c)
    out += (f'/-- {cite}. -/\ndef c{c} : Cls where\n  name := {quote(c)}\n  params := [{wrap(", ".join(row))}]\n'
            f'  pos := [{wrap(", ".join(map(quote, pos)))}]\n'
            f'  reads := [{wrap(", ".join(f"({quote(n)}, .{k})" for n, k in rd))}]\n\n')
out += '/-- All of them. -/\ndef classes : List Cls :=\n  [' + wrap(', '.join(names), 120, '\n   ') + ']\n\nend Neml.PyCreate\n'
open('/verif/lean/Verif/Model/Classes.lean', 'w').write(out)
