import Verif.Props.Newton
import Verif.Props.PySolve

/-!
# C195: the iteration limit

A limit of `m` iterations should mean that the solver may do `m` iterations and has an answer as soon as one of them
is within tolerance.
-/

namespace Neml.Newton

variable {n : Nat} {sys : System n}
  {solve : Matrix (Fin n) (Fin n) ℝ → (Fin n → ℝ) → Option (Fin n → ℝ)} {p : Params}

/-- The points the solver would visit with no limit: `Visits nR0 k it`, the iterate after `k` iterations, none of the
iterates before it being within tolerance. -/
inductive Visits (sys : System n) (solve : Matrix (Fin n) (Fin n) ℝ → (Fin n → ℝ) → Option (Fin n → ℝ)) (p : Params)
    (nR0 : ℝ) (it0 : It n) : ℕ → It n → Prop
  | start : Visits sys solve p nR0 it0 0 it0
  | next {k it it'} : Visits sys solve p nR0 it0 k it → ¬ Conv p nR0 it → body sys solve p it = .ok it' →
      Visits sys solve p nR0 it0 (k + 1) it'

/-- There is one iterate for each number of iterations. -/
theorem Visits.unique {nR0 : ℝ} {it0 : It n} {k : ℕ} {a b : It n} (ha : Visits sys solve p nR0 it0 k a)
    (hb : Visits sys solve p nR0 it0 k b) : a = b := by
  induction ha generalizing b with
  | start => cases hb; rfl
  | next _ _ h ih =>
    cases hb with
    | next h1 _ h2 =>
      obtain rfl := ih h1
      rw [h] at h2
      exact Except.ok.inj h2

/-- An iterate before a visited one was visited and not within tolerance. -/
theorem Visits.before {nR0 : ℝ} {it0 : It n} {k : ℕ} {a : It n} (ha : Visits sys solve p nR0 it0 k a) {j : ℕ}
    (hj : j < k) : ∃ b, Visits sys solve p nR0 it0 j b ∧ ¬ Conv p nR0 b := by
  induction ha with
  | start => omega
  | @next k it it' h1 h2 _ ih =>
    rcases Nat.lt_succ_iff_lt_or_eq.mp hj with h | rfl
    · exact ih h
    · exact ⟨it, h1, h2⟩

/-- The loop from a visited iterate: what it ends with. -/
theorem loop_ends {nR0 : ℝ} {it0 : It n} (fuel : ℕ) {k : ℕ} {it : It n} (hv : Visits sys solve p nR0 it0 k it)
    (hk : (k : ℤ) < p.miter) {r} (h : loop sys solve p nR0 fuel k it = some r) :
    (∃ (j : ℕ) (x : It n), (j : ℤ) < p.miter ∧ Visits sys solve p nR0 it0 j x ∧ Conv p nR0 x ∧ r = .ok (j, x)) ∨
    (∃ (j : ℕ) (x : It n), (j : ℤ) = p.miter ∧ Visits sys solve p nR0 it0 j x ∧ r = .ok (j, x)) ∨
    (∃ (j : ℕ) (x : It n) (e : _), (j : ℤ) < p.miter ∧ Visits sys solve p nR0 it0 j x ∧ ¬ Conv p nR0 x ∧ body sys solve p x = .error e ∧
      r = .error e) := by
  induction fuel generalizing k it with
  | zero => simp [loop] at h
  | succ fuel ih =>
    by_cases hc : Conv p nR0 it
    · rw [loop_of_conv hc] at h
      exact Or.inl ⟨k, it, hk, hv, hc, (Option.some.inj h).symm⟩
    · cases hb : body sys solve p it with
      | error e =>
        rw [loop_of_error hc hb] at h
        exact Or.inr (Or.inr ⟨k, it, e, hk, hv, hc, hb, (Option.some.inj h).symm⟩)
      | ok it' =>
        rw [loop_of_step hc hb] at h
        have hv' := hv.next hc hb
        by_cases hm : (k : ℤ) + 1 ≥ p.miter
        · rw [if_pos hm] at h
          refine Or.inr (Or.inl ⟨k + 1, it', by push_cast; omega, hv', ?_⟩)
          rw [← Option.some.inj h]; push_cast; rfl
        · rw [if_neg hm] at h
          exact ih hv' (by push_cast; omega) (by push_cast; exact h)

/-- **C195** the compiled solver with a limit of `m ≥ 1`: it answers exactly if an iterate is within tolerance after
fewer than `m` iterations, with the first such iterate. -/
theorem C195_answers {R0 J0} (h0 : sys.RJ sys.init = some (R0, J0)) (hm : 1 ≤ p.miter) {fuel : ℕ}
    (hf : p.miter ≤ fuel) (it : It n) :
    newton sys solve p fuel = some (.ok it) ↔ ∃ k : ℕ, (k : ℤ) < p.miter ∧
      Visits sys solve p (norm2 R0) ⟨sys.init, R0, J0, norm2 R0, 1⟩ k it ∧ Conv p (norm2 R0) it := by
  have hns := loop_stops (sys := sys) (solve := solve) (p := p) (nR0 := norm2 R0) fuel 0
    ⟨sys.init, R0, J0, norm2 R0, 1⟩ (by omega) (by omega)
  obtain ⟨r, hr⟩ := Option.ne_none_iff_exists'.mp hns
  have hend := loop_ends (it0 := ⟨sys.init, R0, J0, norm2 R0, 1⟩) fuel .start (show ((0 : ℕ) : ℤ) < p.miter by omega)
    (by exact_mod_cast hr)
  unfold newton
  simp only [h0, hr]
  rcases hend with ⟨j, x, h1, h2, h3, rfl⟩ | ⟨j, x, h1, h2, rfl⟩ | ⟨j, x, e, h1, h2, h3, h4, rfl⟩
  · simp only [if_neg h1.ne, Option.some.injEq, Except.ok.injEq]
    constructor
    · rintro rfl
      exact ⟨j, h1, h2, h3⟩
    · rintro ⟨k, hk, hv, hc⟩
      rcases lt_trichotomy j k with h | rfl | h
      · obtain ⟨b, hb, hbc⟩ := hv.before h
        rw [h2.unique hb] at h3
        exact absurd h3 hbc
      · exact h2.unique hv
      · obtain ⟨b, hb, hbc⟩ := h2.before h
        rw [hv.unique hb] at hc
        exact absurd hc hbc
  · simp only [if_pos h1]
    constructor
    · intro h; simp at h
    · rintro ⟨k, hk, hv, hc⟩
      obtain ⟨b, hb, hbc⟩ := h2.before (j := k) (by omega)
      rw [hv.unique hb] at hc
      exact absurd hc hbc
  · constructor
    · intro h; simp at h
    · rintro ⟨k, hk, hv, hc⟩
      rcases lt_trichotomy j k with h | rfl | h
      · exfalso
        have key : ∀ {k y}, Visits sys solve p (norm2 R0) ⟨sys.init, R0, J0, norm2 R0, 1⟩ k y → j < k → False := by
          intro k y hy
          induction hy with
          | start => intro h; omega
          | @next k a b g1 g2 g3 ih =>
            intro h
            rcases Nat.lt_succ_iff_lt_or_eq.mp h with h | rfl
            · exact ih h
            · rw [g1.unique h2, h4] at g3
              cases g3
        exact key hv h
      · rw [h2.unique hv] at h3; exact absurd hc h3
      · obtain ⟨b, hb, hbc⟩ := h2.before h
        rw [hv.unique hb] at hc
        exact absurd hc hbc

/-- **C195** it gives up for the number of iterations exactly if it has done `m` of them, without looking whether the
last one was within tolerance. -/
theorem C195_gives_up {R0 J0} (h0 : sys.RJ sys.init = some (R0, J0)) (hm : 1 ≤ p.miter) {fuel : ℕ}
    (hf : p.miter ≤ fuel) {j : ℕ} {x : It n} (hj : (j : ℤ) = p.miter)
    (hv : Visits sys solve p (norm2 R0) ⟨sys.init, R0, J0, norm2 R0, 1⟩ j x) :
    newton sys solve p fuel = some (.error .maxIter) := by
  have hns := loop_stops (sys := sys) (solve := solve) (p := p) (nR0 := norm2 R0) fuel 0
    ⟨sys.init, R0, J0, norm2 R0, 1⟩ (by omega) (by omega)
  obtain ⟨r, hr⟩ := Option.ne_none_iff_exists'.mp hns
  have hend := loop_ends (it0 := ⟨sys.init, R0, J0, norm2 R0, 1⟩) fuel .start (show ((0 : ℕ) : ℤ) < p.miter by omega)
    (by exact_mod_cast hr)
  unfold newton
  simp only [h0, hr]
  rcases hend with ⟨i, y, h1, h2, h3, rfl⟩ | ⟨i, y, h1, h2, rfl⟩ | ⟨i, y, e, h1, h2, h3, h4, rfl⟩
  · obtain ⟨b, hb, hbc⟩ := hv.before (j := i) (by omega)
    rw [h2.unique hb] at h3
    exact absurd h3 hbc
  · simp only [if_pos h1]
  · exfalso
    have key : ∀ {k y}, Visits sys solve p (norm2 R0) ⟨sys.init, R0, J0, norm2 R0, 1⟩ k y → i < k → False := by
      intro k y hy
      induction hy with
      | start => intro h; omega
      | @next k a b g1 g2 g3 ih =>
        intro h
        rcases Nat.lt_succ_iff_lt_or_eq.mp h with h | rfl
        · exact ih h
        · rw [g1.unique h2, h4] at g3
          cases g3
    exact key hv (by omega)

/-- The equation `x = 0` with the slope taken twice too large: every iteration halves the residual. -/
noncomputable def halving : System 1 where
  init := 1
  RJ x := some (x, Matrix.of fun _ _ => 2)

theorem norm2_one (x : Fin 1 → ℝ) (h : 0 ≤ x 0) : norm2 x = x 0 := by
  simp [norm2, Real.sqrt_mul_self h]

theorem halving_visits (m : ℕ) {p : Params} (hp : p.linesearch = false) (ha : ∀ k < m, p.atol ≤ (1 / 2) ^ k)
    (hr : ∀ k < m, p.rtol ≤ (1 / 2) ^ k) :
    ∃ c, Visits halving (fun _ R => some fun i => R i / 2) p (norm2 (1 : Fin 1 → ℝ))
      ⟨1, 1, Matrix.of fun _ _ => 2, norm2 (1 : Fin 1 → ℝ), 1⟩ m
      ⟨fun _ => (1 / 2) ^ m, fun _ => (1 / 2) ^ m, Matrix.of fun _ _ => 2, (1 / 2) ^ m, c⟩ := by
  have h1 : norm2 (1 : Fin 1 → ℝ) = 1 := norm2_one 1 zero_le_one
  induction m with
  | zero =>
    refine ⟨1, ?_⟩
    simp only [pow_zero, h1]
    exact .start
  | succ m ih =>
    obtain ⟨c, hc⟩ := ih (fun k hk => ha k (by omega)) (fun k hk => hr k (by omega))
    refine ⟨c + 1, hc.next ?_ ?_⟩
    · rintro (h | ⟨-, h⟩)
      · exact absurd h (not_lt.mpr (ha m (by omega)))
      · rw [h1, div_one] at h
        exact absurd h (not_lt.mpr (hr m (by omega)))
    · simp only [body, hp, halving]
      simp only [Bool.false_eq_true, if_false]
      have e : (fun _ : Fin 1 => (1 / 2 : ℝ) ^ m - (1 / 2) ^ m / 2) = fun _ => (1 / 2) ^ (m + 1) := by
        funext _; rw [pow_succ]; ring
      rw [e, norm2_one _ (by positivity)]

/-- **C195** fails for the compiled solver, for every limit: a problem whose `m`-th iterate is within tolerance is given
up with a limit of `m` and solved with a limit of `m + 1`. With a limit of one not even a linear problem can be solved,
unless its solution is the guess. -/
theorem C195_last_iteration_disagreement (m : ℕ) (hm : 1 ≤ m) :
    ∃ (sys : System 1) (solve : Matrix (Fin 1) (Fin 1) ℝ → (Fin 1 → ℝ) → Option (Fin 1 → ℝ)) (p : ℤ → Params) (R0 : Fin 1 → ℝ)
      (J0 : Matrix (Fin 1) (Fin 1) ℝ) (it : It 1), (∀ l, (p l).miter = l) ∧ sys.RJ sys.init = some (R0, J0) ∧
      Visits sys solve (p m) (norm2 R0) ⟨sys.init, R0, J0, norm2 R0, 1⟩ m it ∧ Conv (p m) (norm2 R0) it ∧
      newton sys solve (p m) m = some (.error .maxIter) ∧
      newton sys solve (p (m + 1)) (m + 1) = some (.ok it) := by
  have ha : ∀ k < m, (1 / 2 : ℝ) ^ (m - 1) ≤ (1 / 2) ^ k := fun k hk =>
    pow_le_pow_of_le_one (by norm_num) (by norm_num) (by omega)
  have hv := fun l : ℤ => halving_visits m (p := ⟨0, (1 / 2) ^ (m - 1), l, false⟩) rfl ha (fun k _ => by positivity)
  obtain ⟨c, hc⟩ := hv m
  obtain ⟨c', hc'⟩ := hv (m + 1)
  have hcc : c = c' := by
    have key : ∀ {k it}, Visits halving (fun _ R => some fun i => R i / 2) ⟨0, (1 / 2) ^ (m - 1), m, false⟩
        (norm2 (1 : Fin 1 → ℝ)) ⟨1, 1, Matrix.of fun _ _ => 2, norm2 (1 : Fin 1 → ℝ), 1⟩ k it →
        Visits halving (fun _ R => some fun i => R i / 2) ⟨0, (1 / 2) ^ (m - 1), m + 1, false⟩
        (norm2 (1 : Fin 1 → ℝ)) ⟨1, 1, Matrix.of fun _ _ => 2, norm2 (1 : Fin 1 → ℝ), 1⟩ k it := by
      intro k it h
      induction h with
      | start => exact .start
      | next _ h2 h3 ih => exact ih.next h2 h3
    exact congrArg It.calls ((key hc).unique hc')
  subst hcc
  have hconv : ∀ l : ℤ, Conv (⟨0, (1 / 2) ^ (m - 1), l, false⟩ : Params) (norm2 (1 : Fin 1 → ℝ))
      (⟨fun _ => (1 / 2) ^ m, fun _ => (1 / 2) ^ m, Matrix.of fun _ _ => 2, (1 / 2) ^ m, c⟩ : It 1) := by
    intro l
    left
    show (1 / 2 : ℝ) ^ m < (1 / 2) ^ (m - 1)
    obtain ⟨k, rfl⟩ : ∃ k, m = k + 1 := ⟨m - 1, by omega⟩
    have : (0 : ℝ) < (1 / 2) ^ k := by positivity
    rw [pow_succ, Nat.add_sub_cancel]
    linarith
  refine ⟨halving, fun _ R => some fun i => R i / 2, fun l => ⟨0, (1 / 2) ^ (m - 1), l, false⟩, 1,
    Matrix.of fun _ _ => 2, _, fun _ => rfl, rfl, hc, hconv m, ?_, ?_⟩
  · exact C195_gives_up (R0 := 1) (J0 := Matrix.of fun _ _ => 2) rfl (by simpa using hm) (by simp) rfl hc
  · exact (C195_answers (R0 := 1) (J0 := Matrix.of fun _ _ => 2) rfl (by simp) (by simp) _).mpr
      ⟨m, by simp, hc', hconv _⟩

end Neml.Newton

namespace Neml.PySolve

variable {σ X R J : Type}

/-- The points a Python solver would visit with no limit, with what the residual function left behind. -/
inductive Visits (it : Iter σ X R J) (rtol atol nR0 : ℝ) (s0 : σ) (x0 : X) (r0 : R) (j0 : J) :
    ℕ → σ → X → R → J → Prop
  | start : Visits it rtol atol nR0 s0 x0 r0 j0 0 s0 x0 r0 j0
  | next {k s x r j s1 x' r' j' s2} : Visits it rtol atol nR0 s0 x0 r0 j0 k s x r j →
      ¬ Done rtol atol nR0 (it.size r) → it.next s x r j = some (x', s1) → it.rj s1 x' = some (r', j', s2) →
      Visits it rtol atol nR0 s0 x0 r0 j0 (k + 1) s2 x' r' j'

theorem loop_visits (it : Iter σ X R J) (rtol atol nR0 : ℝ) {m : ℕ} {s0 : σ} {x0 : X} {r0 : R} {j0 : J} {x : X} {s : σ} :
    loop it rtol atol nR0 m s0 x0 r0 j0 = some (x, s) ↔
      ∃ k ≤ m, ∃ r j, Visits it rtol atol nR0 s0 x0 r0 j0 k s x r j ∧ Done rtol atol nR0 (it.size r) := by
  have front : ∀ {k s0 x0 r0 j0 x1 s1 r1 j1 s2 x r j}, ¬ Done rtol atol nR0 (it.size r0) →
      it.next s0 x0 r0 j0 = some (x1, s1) → it.rj s1 x1 = some (r1, j1, s2) →
      Visits it rtol atol nR0 s2 x1 r1 j1 k s x r j → Visits it rtol atol nR0 s0 x0 r0 j0 (k + 1) s x r j := by
    intro k s0 x0 r0 j0 x1 s1 r1 j1 s2 x r j h1 h2 h3 h
    induction h with
    | start => exact .next .start h1 h2 h3
    | next _ a b c ih => exact ih.next a b c
  have back : ∀ {k s0 x0 r0 j0 s x r j}, Visits it rtol atol nR0 s0 x0 r0 j0 (k + 1) s x r j →
      ¬ Done rtol atol nR0 (it.size r0) ∧ ∃ x1 s1 r1 j1 s2, it.next s0 x0 r0 j0 = some (x1, s1) ∧
        it.rj s1 x1 = some (r1, j1, s2) ∧ Visits it rtol atol nR0 s2 x1 r1 j1 k s x r j := by
    intro k
    induction k with
    | zero =>
      intro s0 x0 r0 j0 s x r j h
      cases h with
      | next h a b c =>
        cases h
        exact ⟨a, _, _, _, _, _, b, c, .start⟩
    | succ k ih =>
      intro s0 x0 r0 j0 s x r j h
      cases h with
      | next h a b c =>
        obtain ⟨h1, x1, s1, r1, j1, s2, h2, h3, h4⟩ := ih h
        exact ⟨h1, x1, s1, r1, j1, s2, h2, h3, h4.next a b c⟩
  induction m generalizing s0 x0 r0 j0 with
  | zero =>
    rw [loop]
    constructor
    · intro h
      split_ifs at h with hd
      cases h
      exact ⟨0, le_rfl, r0, j0, .start, hd⟩
    · rintro ⟨k, hk, r, j, hv, hd⟩
      obtain rfl : k = 0 := by omega
      cases hv
      rw [if_pos hd]
  | succ m ih =>
    rw [loop]
    by_cases hd : Done rtol atol nR0 (it.size r0)
    · rw [if_pos hd]
      constructor
      · intro h
        cases h
        exact ⟨0, by omega, r0, j0, .start, hd⟩
      · rintro ⟨k, hk, r, j, hv, hd'⟩
        cases k with
        | zero => cases hv; rfl
        | succ k => exact absurd hd (back hv).1
    · rw [if_neg hd]
      constructor
      · intro h
        rcases hn : it.next s0 x0 r0 j0 with _ | ⟨x1, s1⟩ <;> simp only [hn] at h
        · cases h
        rcases hr : it.rj s1 x1 with _ | ⟨r1, j1, s2⟩ <;> simp only [hr] at h
        · cases h
        obtain ⟨k, hk, r, j, hv, hd'⟩ := ih.mp h
        exact ⟨k + 1, by omega, r, j, front hd hn hr hv, hd'⟩
      · rintro ⟨k, hk, r, j, hv, hd'⟩
        cases k with
        | zero => cases hv; exact absurd hd' hd
        | succ k =>
          obtain ⟨-, x1, s1, r1, j1, s2, h2, h3, h4⟩ := back hv
          simp only [h2, h3]
          exact ih.mpr ⟨k, by omega, r, j, h4, hd'⟩

/-- **C195** the Python solvers with a limit of `m`: they answer exactly if an iterate is within tolerance after at most
`m` iterations, with the first such iterate. -/
theorem C195_python (it : Iter σ X R J) (rtol atol : ℝ) (m : ℕ) (s0 : σ) (x0 x : X) (s : σ) :
    solve it rtol atol m s0 x0 = some (x, s) ↔
      ∃ r0 j0 s1, it.rj s0 x0 = some (r0, j0, s1) ∧ ∃ k ≤ m, ∃ r j,
        Visits it rtol atol (it.size r0) s1 x0 r0 j0 k s x r j ∧ Done rtol atol (it.size r0) (it.size r) := by
  unfold solve
  rcases h : it.rj s0 x0 with _ | ⟨r0, j0, s1⟩
  · simp
  · simp only [loop_visits]
    constructor
    · intro h'; exact ⟨r0, j0, s1, rfl, h'⟩
    · rintro ⟨r, j, s', e, h'⟩
      cases e
      exact h'

/-- A larger limit never loses an answer, and gives the same one. -/
theorem C195_python_mono (it : Iter σ X R J) (rtol atol : ℝ) {m m' : ℕ} (hm : m ≤ m') (s0 : σ) (x0 x : X) (s : σ)
    (h : solve it rtol atol m s0 x0 = some (x, s)) : solve it rtol atol m' s0 x0 = some (x, s) := by
  obtain ⟨r0, j0, s1, h1, k, hk, h2⟩ := (C195_python it rtol atol m s0 x0 x s).mp h
  exact (C195_python it rtol atol m' s0 x0 x s).mpr ⟨r0, j0, s1, h1, k, hk.trans hm, h2⟩

/-- The same equation is solved by the Python solver with the limit at which the compiled one gives up: `x ↦ x/2` from
one, within 1/2, one iteration. -/
example : solve (σ := Unit) (X := ℝ) (R := ℝ) (J := Unit) ⟨fun _ x => some (x, (), ()), fun r => |r|,
    fun _ x _ _ => some (x / 2, ())⟩ 0 (1 / 2) 1 () 1 = some (1 / 2, ()) := by
  refine (C195_python _ _ _ _ _ _ _ _).mpr ⟨1, (), (), rfl, 1, le_rfl, 1 / 2, (), .next .start ?_ rfl rfl, ?_⟩
  · simp only [Done]; norm_num
  · simp only [Done]; norm_num

end Neml.PySolve

namespace Neml.Newton

/-- A larger limit never loses an answer of the compiled solver either, and gives the same one. -/
theorem C195_mono {n : Nat} {sys : System n}
    {solve : Matrix (Fin n) (Fin n) ℝ → (Fin n → ℝ) → Option (Fin n → ℝ)} {rtol atol : ℝ} {ls : Bool} {m m' : ℤ}
    (hm : 1 ≤ m) (hmm : m ≤ m') {f f' : ℕ} (hf : m ≤ f) (hf' : m' ≤ f') {it : It n}
    (h : newton sys solve ⟨rtol, atol, m, ls⟩ f = some (.ok it)) :
    newton sys solve ⟨rtol, atol, m', ls⟩ f' = some (.ok it) := by
  rcases h0 : sys.RJ sys.init with _ | ⟨R0, J0⟩
  · simp [newton, h0] at h
  · obtain ⟨k, hk, hv, hc⟩ := (C195_answers h0 hm hf it).mp h
    refine (C195_answers h0 (hm.trans hmm) hf' it).mpr ⟨k, lt_of_lt_of_le hk hmm, ?_, hc⟩
    clear hc h
    induction hv with
    | start => exact .start
    | @next k a b _ h2 h3 ih => exact (ih (by push_cast at hk; show (k : ℤ) < m; have : ((k + 1 : ℕ) : ℤ) < m := hk; push_cast at this; omega)).next h2 h3

example : newton halving (fun _ R => some fun i => R i / 2) ⟨0, 1 / 2, 1, false⟩ 1 = some (.error .maxIter) := by
  obtain ⟨c, hc⟩ := halving_visits 1 (p := ⟨0, 1 / 2, 1, false⟩) rfl
    (fun k hk => by obtain rfl : k = 0 := by omega
                    norm_num) (fun k _ => by positivity)
  exact C195_gives_up (R0 := 1) (J0 := Matrix.of fun _ _ => 2) rfl le_rfl le_rfl rfl hc

end Neml.Newton
