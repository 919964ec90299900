import Verif.Proofs.Deriv
import Verif.Proofs.AggFacts
import Verif.Proofs.Poly
import Verif.Props.TaylorTotal
import Verif.Spec.Taylor
import Mathlib.Tactic.NormNum
import Mathlib.Tactic.Ring
import Mathlib.Tactic.Linarith
/-! # How large derivatives get (C62) -/

namespace SymRust
variable {F : Type} [FloatOps F]
open Expr

theorem Der.depth_le {m : Mode} {x : Variable} {e e' : Expr F} (h : Der m x e e') : depth e' ≤ 4 * depth e := by
  induction h with
  | num | var | var_ne => simp
  | neg _ hg i => have := hg.depth_le; simp at this ⊢; omega
  | add _ _ hg i j => have := hg.depth_le; simp at this ⊢; omega
  | sub _ _ hg i j => have := hg.depth_le; simp at this ⊢; omega
  | mul _ _ hg i j => have := hg.depth_le; simp at this ⊢; omega
  | div _ _ hg i j => have := hg.depth_le; simp at this ⊢; omega
  | sin _ hg i => have := hg.depth_le; simp at this ⊢; omega
  | cos _ hg i => have := hg.depth_le; simp at this ⊢; omega
  | exp _ hg i => have := hg.depth_le; simp at this ⊢; omega
  | ln _ hg i => have := hg.depth_le; simp at this ⊢; omega
  | pow _ _ hg i j => have := hg.depth_le; simp at this ⊢; omega

theorem Der.size_le {m : Mode} {x : Variable} {e e' : Expr F} (h : Der m x e e') :
    size e' ≤ 4 * (size e * depth e) := by
  have bin : ∀ {A B D₁ D₂ s₁ s₂ T : Nat}, 0 < A → 0 < B → s₁ ≤ 4 * (A * D₁) → s₂ ≤ 4 * (B * D₂) →
      T ≤ s₁ + s₂ + 4 * (A + B + 1) → T ≤ 4 * ((1 + (A + B)) * (1 + max D₁ D₂)) := by
    intro A B D₁ D₂ s₁ s₂ T hA hB h1 h2 hT
    have e1 : A * D₁ ≤ A * max D₁ D₂ := Nat.mul_le_mul_left _ (le_max_left ..)
    have e2 : B * D₂ ≤ B * max D₁ D₂ := Nat.mul_le_mul_left _ (le_max_right ..)
    have : 4 * ((1 + (A + B)) * (1 + max D₁ D₂)) =
      4 * (A + B + 1) + 4 * (A * max D₁ D₂) + 4 * (B * max D₁ D₂) + 4 * max D₁ D₂ := by ring
    omega
  have un : ∀ {A D s T : Nat}, 0 < A → s ≤ 4 * (A * D) → T ≤ s + 4 * (A + 1) → T ≤ 4 * ((1 + A) * (1 + D)) := by
    intro A D s T hA h1 hT
    have : 4 * ((1 + A) * (1 + D)) = 4 * (A + 1) + 4 * (A * D) + 4 * D := by ring
    omega
  induction h with
  | num | var | var_ne => simp
  | @neg a _ _ _ hg i => 
    have := hg.size_le'; rw [size_neg, depth_neg]; simp only [size_neg] at this
    exact un (size_pos a) i (by omega)
  | @add a b _ _ _ _ _ hg i j =>
    have := hg.size_le'; rw [size_add, depth_add]; simp only [size_add] at this
    exact bin (size_pos a) (size_pos b) i j (by omega)
  | @sub a b _ _ _ _ _ hg i j =>
    have := hg.size_le'; rw [size_sub, depth_sub]; simp only [size_sub] at this
    exact bin (size_pos a) (size_pos b) i j (by omega)
  | @mul a b _ _ _ _ _ hg i j =>
    have := hg.size_le'; rw [size_mul, depth_mul]; simp only [size_add, size_mul] at this
    exact bin (size_pos a) (size_pos b) i j (by omega)
  | @div a b _ _ _ _ _ hg i j =>
    have := hg.size_le'; rw [size_div, depth_div]; simp only [size_sub, size_mul, size_div] at this
    have := size_pos a
    have := size_pos b
    exact bin (size_pos a) (size_pos b) i j (by omega)
  | @sin a _ _ _ hg i =>
    have := hg.size_le'; rw [size_sin, depth_sin]; simp only [size_mul, size_cos] at this
    exact un (size_pos a) i (by omega)
  | @cos a _ _ _ hg i =>
    have := hg.size_le'; rw [size_cos, depth_cos]; simp only [size_mul, size_neg, size_sin] at this
    exact un (size_pos a) i (by omega)
  | @exp a _ _ _ hg i =>
    have := hg.size_le'; rw [size_exp, depth_exp]; simp only [size_mul, size_exp] at this
    exact un (size_pos a) i (by omega)
  | @ln a _ _ _ hg i =>
    have := hg.size_le'; rw [size_ln, depth_ln]; simp only [size_div] at this
    exact un (size_pos a) i (by omega)
  | @pow a b _ _ _ _ _ hg i j =>
    have := hg.size_le'; rw [size_pow, depth_pow]
    simp only [size_mul, size_pow, size_add, size_ln, size_div] at this
    have := size_pos a
    have := size_pos b
    exact bin (size_pos a) (size_pos b) i j (by omega)

/-- C62: in every build, the derivative of an expression of `n` nodes and depth `h` has at most `4 n h` nodes and depth
at most `4 h`. -/
theorem C62_derivative_size (m m' : Mode) (e d : Expr F) (he : Built m' e) (x : Variable) (h : e.derivative m x = .ok d) :
    size d ≤ 4 * (size e * depth e) ∧ depth d ≤ 4 * depth e :=
  let hd := der_of_derivative he.tree h
  ⟨hd.size_le, hd.depth_le⟩

/-- C62: the `k`-fold derivative has depth at most `4^k h` and at most `n (4h)^k 2^(k(k-1))` nodes. -/
theorem C62_nth_derivative_size (m m' : Mode) (e d : Expr F) (he : Built m' e) (x : Variable) (k : Nat)
    (h : nthDerivative m e x k = .ok d) :
    depth d ≤ 4 ^ k * depth e ∧ size d ≤ size e * (4 * depth e) ^ k * 2 ^ (k * (k - 1)) := by
  induction k generalizing d with
  | zero => cases h; simp
  | succ k ih =>
    obtain ⟨c, h1, h2⟩ := Out.bind_eq_ok.1 h
    obtain ⟨i1, i2⟩ := ih c h1
    have hd := der_of_derivative (nthDerivative_tree he.tree k h1) h2
    refine ⟨?_, ?_⟩
    · calc depth d ≤ 4 * depth c := hd.depth_le
        _ ≤ 4 * (4 ^ k * depth e) := Nat.mul_le_mul_left _ i1
        _ = _ := by ring
    · calc size d ≤ 4 * (size c * depth c) := hd.size_le
        _ ≤ 4 * ((size e * (4 * depth e) ^ k * 2 ^ (k * (k - 1))) * (4 ^ k * depth e)) :=
          Nat.mul_le_mul_left _ (Nat.mul_le_mul i2 i1)
        _ = size e * (4 * depth e) ^ (k + 1) * (2 ^ (k * (k - 1)) * 4 ^ k) := by ring
        _ = _ := by
          congr 1
          rw [show (4 : Nat) = 2 ^ 2 by norm_num, ← pow_mul, ← pow_add]
          congr 1
          cases k with
          | zero => rfl
          | succ k => simp only [Nat.add_sub_cancel]; ring

/-! The bound is of the right order: for sines nested `n` deep the derivative really has quadratically many nodes. -/

/-- sin(sin(…sin(x)…)), with `n` sines. -/
def nestedSin (n : Nat) : Expr F :=
  match n with
  | 0 => newVariable "x"
  | n + 1 => (nestedSin n).sin

/-- cos(sinⁿ x) * (… * (cos(sin x) * cos x)…), with `n + 1` cosines. -/
def cosines (n : Nat) : Expr F :=
  match n with
  | 0 => (newVariable "x").cos
  | n + 1 => (nestedSin (n + 1)).cos.mul (cosines n)

theorem numAggregate_nestedSin (m : Mode) (n : Nat) : (nestedSin n : Expr F).numAggregate m = .ok (nestedSin n) := by
  induction n with
  | zero => exact numAggregate_ofVar m _
  | succ n ih =>
    rw [nestedSin, numAggregate_sin, ih]
    cases n <;> rfl

theorem numAggregate_cos_nestedSin (m : Mode) (n : Nat) :
    (nestedSin n : Expr F).cos.numAggregate m = .ok (nestedSin n).cos := by
  rw [numAggregate_cos, numAggregate_nestedSin]
  cases n <;> rfl

theorem numAggregate_cosines (m : Mode) (n : Nat) : (cosines n : Expr F).numAggregate m = .ok (cosines n) := by
  induction n with
  | zero => exact numAggregate_cos_nestedSin m 0
  | succ n ih =>
    rw [cosines, numAggregate_mul, ih, numAggregate_cos_nestedSin]
    cases n <;> rfl

/-- C62: the bound of C62_derivative_size is attained up to a constant factor: sin nested `n + 1` deep has `n + 2` nodes
and depth, and its derivative is the product of the `n + 1` cosines, which has `(n² + 7 n + 4) / 2` nodes. -/
theorem C62_quadratic (m : Mode) (n : Nat) :
    (nestedSin (n + 1) : Expr F).derivative m ⟨"x"⟩ = .ok (cosines n) ∧ Built m (nestedSin (n + 1) : Expr F) ∧
    size (nestedSin (n + 1) : Expr F) = n + 2 ∧ depth (nestedSin (n + 1) : Expr F) = n + 2 ∧
    2 * size (cosines n : Expr F) = n ^ 2 + 7 * n + 4 := by
  have hb : ∀ n, Built m (nestedSin n : Expr F) := by
    intro n
    induction n with
    | zero => exact .var _
    | succ n ih => exact .sin _ ih
  have hs : ∀ n, size (nestedSin n : Expr F) = n + 1 ∧ depth (nestedSin n : Expr F) = n + 1 := by
    intro n
    induction n with
    | zero => exact ⟨rfl, rfl⟩
    | succ n ih => rw [nestedSin, size_sin, depth_sin]; omega
  refine ⟨?_, hb _, (hs _).1, (hs _).2, ?_⟩
  · induction n with
    | zero => exact derivative_sin_var m _
    | succ n ih =>
      rw [nestedSin, derivative_sin, ih]
      have := numAggregate_cosines (F := F) m (n + 1)
      rw [cosines] at this
      show ((((nestedSin (n + 1)).cos.mul (cosines n) : Expr F).numAggregate m).lift) = _
      rw [this]
      rfl
  · induction n with
    | zero => rfl
    | succ n ih =>
      rw [cosines, size_mul, size_cos, (hs _).1]
      have : (n + 1) ^ 2 = n ^ 2 + 2 * n + 1 := by ring
      omega

/-- C62: an instance: the third derivative of x*exp(x*y) is within the bound, and succeeds in every build. -/
theorem C62_example (m : Mode) : ∃ d : Expr F,
    nthDerivative m ((newVariable "x").mul ((newVariable "x").mul (newVariable "y")).exp) ⟨"x"⟩ 3 = .ok d ∧
    size d = 39 := by
  have key : (match nthDerivative m ((newVariable "x").mul ((newVariable "x").mul (newVariable "y")).exp : Expr F) ⟨"x"⟩ 3 with
      | .ok d => size d
      | _ => 0) = 39 := by
    cases m <;> krfl
  split at key
  · rename_i d h
    exact ⟨d, h, key⟩
  · cases key

/-! ### substitution, expansions -/

omit [FloatOps F] in
theorem size_replace_le {e : Expr F} (he : Tree e) (x : Variable) (v : Expr F) :
    size (e.replace x v) ≤ size e * size v := by
  have hv := size_pos v
  induction he with
  | num n => rw [replace_ofNum, size_ofNum]; omega
  | var y => rw [replace_ofVar]; split_ifs <;> simp <;> omega
  | neg a _ i | sin a _ i | cos a _ i | exp a _ i | ln a _ i =>
    simp only [replace_neg, replace_sin, replace_cos, replace_exp, replace_ln, size_neg, size_sin, size_cos, size_exp, size_ln]
    nlinarith
  | add a b _ _ i j | sub a b _ _ i j | mul a b _ _ i j | div a b _ _ i j | pow a b _ _ i j =>
    simp only [replace_add, replace_sub, replace_mul, replace_div, replace_pow, size_add, size_sub, size_mul, size_div, size_pow]
    nlinarith

omit [FloatOps F] in
theorem depth_replace_lt {e : Expr F} (he : Tree e) (x : Variable) (v : Expr F) :
    depth (e.replace x v) + 1 ≤ depth e + depth v := by
  have hv := depth_pos v
  induction he with
  | num n => rw [replace_ofNum]; simp; omega
  | var y => rw [replace_ofVar]; split_ifs <;> simp <;> omega
  | neg a _ i | sin a _ i | cos a _ i | exp a _ i | ln a _ i =>
    simp only [replace_neg, replace_sin, replace_cos, replace_exp, replace_ln, depth_neg, depth_sin, depth_cos, depth_exp, depth_ln]
    omega
  | add a b _ _ i j | sub a b _ _ i j | mul a b _ _ i j | div a b _ _ i j | pow a b _ _ i j =>
    simp only [replace_add, replace_sub, replace_mul, replace_div, replace_pow, depth_add, depth_sub, depth_mul, depth_div, depth_pow]
    omega

/-- C62: coefficient `k` of an expansion at `a` has at most `n (4h)^k 2^(k(k-1)) s + 2` nodes, where `s` is the number of
nodes of `a`, and depth at most `4^k h` plus the depth of `a`. -/
theorem C62_taylor_size (m m' : Mode) (e a : Expr F) (he : Built m' e) (ha : Built m' a) (x : Variable) (n : UInt64)
    (t : PartialExpansion F) (h : e.taylorExpansion m x a n = .ok t) (k : Nat) (c : Expr F) (hc : t.coefficient[k]? = some c) :
    size c ≤ size e * (4 * depth e) ^ k * 2 ^ (k * (k - 1)) * size a + 2 ∧ depth c ≤ 4 ^ k * depth e + depth a := by
  obtain ⟨hl, -, -, -, -, h⟩ := C33_shape m e a x n t h
  have hk : k ≤ n.toNat := by
    have := (List.getElem?_eq_some_iff.1 hc).1
    omega
  obtain ⟨d, s, v, c', h1, h2, h3, h4, h5, -⟩ := h k hk
  rw [hc] at h5
  cases h5
  have td := nthDerivative_tree he.tree k h1
  rw [substitute_eq] at h2
  cases h2
  obtain ⟨b1, b2⟩ := C62_nth_derivative_size m m' e d he x k h1
  have hs := size_replace_le td x a
  have hd := depth_replace_lt td x a
  have ts := td.replace ha.tree x
  have g1 := agg_of_numAggregate ts h3
  have tv := g1.wf (numClosed_true _) ts
  have g2 := agg_of_numAggregate (e := v.div _) (.div _ _ tv (.num _ trivial)) h4
  have s1 := g1.size_le'
  have s2 := g2.size_le'
  have d1 := g1.depth_le
  have d2 := g2.depth_le
  have hv := depth_pos v
  rw [size_div, size_ofNum] at s2
  rw [depth_div, depth_ofNum] at d2
  have b3 := Nat.mul_le_mul_right (size a) b2
  rw [max_eq_left (by omega)] at d2
  constructor
  · linarith
  · linarith

/-- Non-vacuous: such a coefficient: the expansion of exp(x*y) at z + 1 to order 2. -/
example : ∃ (t : PartialExpansion Unit) (c : Expr Unit),
    (((newVariable "x").mul (newVariable "y")).exp : Expr Unit).taylorExpansion .debug ⟨"x"⟩ ((newVariable "z").add (ofI64 1)) 2 = .ok t ∧
    t.coefficient[2]? = some c ∧ size c = 12 := by
  obtain ⟨t, ht⟩ := Out.exists_of_isOk (o := (((newVariable "x").mul (newVariable "y")).exp : Expr Unit).taylorExpansion .debug
    ⟨"x"⟩ ((newVariable "z").add (ofI64 1)) 2) (by krfl)
  have key : (match (((newVariable "x").mul (newVariable "y")).exp : Expr Unit).taylorExpansion .debug ⟨"x"⟩
      ((newVariable "z").add (ofI64 1)) 2 with
    | .ok t => (match t.coefficient[2]? with | some c => size c | none => 0)
    | _ => 0) = 12 := by decide +kernel
  rw [ht] at key
  simp only at key
  split at key
  · rename_i c hc
    exact ⟨t, c, ht, hc, key⟩
  · cases key

end SymRust
