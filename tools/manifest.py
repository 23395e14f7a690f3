"""Update MANIFEST.json: tools/manifest.py ID status note theorem..."""
import json, sys, os
path = os.path.join(os.path.dirname(__file__), "..", "MANIFEST.json")
data = json.load(open(path)) if os.path.exists(path) else {"claims": []}
pid, status, note, *thms = sys.argv[1:]
data["claims"] = [c for c in data["claims"] if c["property"] != pid]
data["claims"].append({"property": pid, "status": status, "theorems": thms, "note": note})
data["claims"].sort(key=lambda c: c["property"])
json.dump(data, open(path, "w"), indent=1)
