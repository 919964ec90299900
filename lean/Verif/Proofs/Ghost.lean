import Verif.Proofs.Map
import Verif.Proofs.TaylorSem
import Verif.Spec.Exact
/-! Transfer from exact floats to arbitrary floats: run the program on floats paired with the real number they
ought to be. -/

namespace SymRust
open Expr

/-- Floats paired with the real number they would be without rounding. -/
noncomputable instance ghostFloat (F : Type) [FloatOps F] : ExactFloat (F × ℝ) where
  add a b := (FloatOps.add a.1 b.1, a.2 + b.2)
  sub a b := (FloatOps.sub a.1 b.1, a.2 - b.2)
  mul a b := (FloatOps.mul a.1 b.1, a.2 * b.2)
  div a b := (FloatOps.div a.1 b.1, a.2 / b.2)
  neg a := (FloatOps.neg a.1, -a.2)
  abs a := (FloatOps.abs a.1, |a.2|)
  lt a b := FloatOps.lt a.1 b.1
  ofI64 v := (FloatOps.ofI64 v, (v.toInt : ℝ))
  ofU64 v := (FloatOps.ofU64 v, (v.toNat : ℝ))
  pi := (FloatOps.pi, Real.pi)
  e := (FloatOps.e, Real.exp 1)
  signumI64 a := FloatOps.signumI64 a.1
  fmt3 a := FloatOps.fmt3 a.1
  val := Prod.snd
  val_add _ _ := rfl
  val_sub _ _ := rfl
  val_mul _ _ := rfl
  val_div _ _ _ := rfl
  val_neg _ := rfl
  val_ofI64 _ := rfl
  val_ofU64 _ := rfl
  val_pi := rfl
  val_e := rfl

variable {F : Type} [FloatOps F]

theorem fstHom : FloatHom (Prod.fst : F × ℝ → F) :=
  ⟨fun _ _ => rfl, fun _ _ => rfl, fun _ _ => rfl, fun _ _ => rfl, fun _ => rfl, fun _ => rfl, fun _ => rfl, rfl, rfl⟩

/-- The lifted number; an untagged float is paired with 0 (its partner is never used). -/
noncomputable def SmartNum.lift (n : SmartNum F) : SmartNum (F × ℝ) :=
  match n.tag with
  | .pi => SmartNum.pi
  | .e => SmartNum.e
  | _ => n.map fun f => (f, 0)

omit [FloatOps F] in
theorem SmartNum.exact?_map {G : Type} (h : F → G) (n : SmartNum F) : (n.map h).exact? = n.exact? := by
  rcases n with ⟨_ | _ | _, t⟩ <;> rfl

theorem SmartNum.valid_map {G : Type} [FloatOps G] {h : F → G} {n : SmartNum F} (hn : n.Valid) (hp : n.tag ≠ .pi)
    (he : n.tag ≠ .e) : (n.map h).Valid := by
  refine ⟨?_, ?_, ?_, ?_, ?_⟩
  · rw [exact?_map]; exact hn.zero_iff
  · rw [exact?_map]; exact hn.one_iff
  · intro hh; exact absurd (by simpa [isPi, SmartNum.map] using hh) hp
  · intro hh; exact absurd (by simpa [isE, SmartNum.map] using hh) he
  · intro r hr
    refine hn.sign_val r ?_
    rcases n with ⟨_ | _ | _, t⟩ <;> simp_all [SmartNum.map, SmartNumVal.map]

theorem SmartNum.valid_lift {n : SmartNum F} (hn : n.Valid) : n.lift.Valid := by
  unfold lift
  split
  · exact valid_pi
  · exact valid_e
  · rename_i h1 h2; exact valid_map hn h1 h2

theorem SmartNum.map_lift {n : SmartNum F} (hn : n.Valid) : n.lift.map Prod.fst = n := by
  unfold lift
  split
  · rename_i h
    rw [SmartNum.pi_map fstHom]
    have := hn.pi_val (by simp [isPi, h])
    rcases n with ⟨v, t⟩; simp_all [SmartNum.pi]
  · rename_i h
    rw [SmartNum.e_map fstHom]
    have := hn.e_val (by simp [isE, h])
    rcases n with ⟨v, t⟩; simp_all [SmartNum.e]
  · rcases n with ⟨_ | _ | _, t⟩ <;> rfl

theorem SmartNum.value?_lift {n : SmartNum F} {r : ℝ} (h : n.exactReal = some r) : n.lift.value? = some r := by
  unfold exactReal at h
  unfold lift
  split at h
  · rename_i ht; (try rw [ht]); cases h; rfl
  · rename_i ht; (try rw [ht]); cases h; rfl
  · rename_i h1 h2
    have : ∀ t : ConstType, t ≠ .pi → t ≠ .e → (match t with
        | .pi => (SmartNum.pi : SmartNum (F × ℝ))
        | .e => SmartNum.e
        | _ => n.map fun f => (f, (0 : ℝ))) = n.map fun f => (f, (0 : ℝ)) := by
      intro t; cases t <;> simp
    try rw [this _ h1 h2]
    rcases n with ⟨_ | _ | _, t⟩
    · exact h
    · exact h
    · simp [exact?, SmartNumVal.exact?] at h

theorem SmartNum.value?_of_exactReal {n : SmartNum (F × ℝ)} (hn : n.Valid) {r : ℝ}
    (h : (n.map Prod.fst).exactReal = some r) : n.value? = some r := by
  unfold exactReal at h
  split at h
  · rename_i ht
    have := hn.pi_val (by simpa [isPi, SmartNum.map] using ht)
    cases h
    rcases n with ⟨v, t⟩; subst this; rfl
  · rename_i ht
    have := hn.e_val (by simpa [isE, SmartNum.map] using ht)
    cases h
    rcases n with ⟨v, t⟩; subst this; rfl
  · rcases n with ⟨_ | _ | _, t⟩
    · exact h
    · exact h
    · simp [exact?, SmartNumVal.exact?, SmartNum.map, SmartNumVal.map] at h

theorem SmartNum.exactReal_of_value? {n : SmartNum (F × ℝ)} (hn : n.Valid) {r : ℝ} (h : n.value? = some r)
    (hf : (n.map Prod.fst).tag = .pi ∨ (n.map Prod.fst).tag = .e ∨ (n.map Prod.fst).NonFloat) :
    (n.map Prod.fst).exactReal = some r := by
  have cases3 : ((n.map Prod.fst).exactReal).isSome ∨ n.value? = none ∨
      (n.value? = (n.map Prod.fst).exactReal) := by
    unfold exactReal
    split
    · exact .inl rfl
    · exact .inl rfl
    · rename_i h1 h2
      right; right
      rcases n with ⟨_ | _ | f, t⟩
      · rfl
      · rfl
      · rcases hf with hf | hf | hf
        · exact absurd hf h1
        · exact absurd hf h2
        · exact absurd rfl (hf f.1)
  rcases cases3 with h' | h' | h'
  · obtain ⟨q, hq⟩ := Option.isSome_iff_exists.1 h'
    have := value?_of_exactReal hn hq
    rw [h] at this; rw [hq, this]
  · rw [h] at h'; cases h'
  · rw [← h', h]

omit [FloatOps F] in
theorem denote_mapNum {G : Type} {P : SmartNum F → Prop} {g : SmartNum F → SmartNum G} {ν : SmartNum F → Option ℝ}
    {ν' : SmartNum G → Option ℝ} {e : Expr F} (he : WF P e) (hg : ∀ n, P n → ∀ r, ν n = some r → ν' (g n) = some r)
    {env : Env} {r : ℝ} (h : denote ν env e = some r) : denote ν' env (e.mapNum g) = some r := by
  induction he generalizing r with
  | num n hn => rw [mapNum_ofNum, denote_ofNum]; exact hg n hn r (by simpa using h)
  | var v => simpa using h
  | neg a _ i => obtain ⟨u, hu, h⟩ := denote_neg.1 h; rw [mapNum_neg]; exact denote_neg.2 ⟨u, i hu, h⟩
  | sin a _ i => obtain ⟨u, hu, h⟩ := denote_sin.1 h; rw [mapNum_sin]; exact denote_sin.2 ⟨u, i hu, h⟩
  | cos a _ i => obtain ⟨u, hu, h⟩ := denote_cos.1 h; rw [mapNum_cos]; exact denote_cos.2 ⟨u, i hu, h⟩
  | exp a _ i => obtain ⟨u, hu, h⟩ := denote_exp.1 h; rw [mapNum_exp]; exact denote_exp.2 ⟨u, i hu, h⟩
  | ln a _ i => obtain ⟨u, hu, h⟩ := denote_ln.1 h; rw [mapNum_ln]; exact denote_ln.2 ⟨u, i hu, h⟩
  | add a b _ _ i j =>
    obtain ⟨u, v, hu, hv, h⟩ := denote_add.1 h; rw [mapNum_add]; exact denote_add.2 ⟨u, v, i hu, j hv, h⟩
  | sub a b _ _ i j =>
    obtain ⟨u, v, hu, hv, h⟩ := denote_sub.1 h; rw [mapNum_sub]; exact denote_sub.2 ⟨u, v, i hu, j hv, h⟩
  | mul a b _ _ i j =>
    obtain ⟨u, v, hu, hv, h⟩ := denote_mul.1 h; rw [mapNum_mul]; exact denote_mul.2 ⟨u, v, i hu, j hv, h⟩
  | div a b _ _ i j =>
    obtain ⟨u, v, hu, hv, h⟩ := denote_div.1 h; rw [mapNum_div]; exact denote_div.2 ⟨u, v, i hu, j hv, h⟩
  | pow a b _ _ i j =>
    obtain ⟨u, v, hu, hv, h⟩ := denote_pow.1 h; rw [mapNum_pow]; exact denote_pow.2 ⟨u, v, i hu, j hv, h⟩

/-- The lifted expression. -/
noncomputable def Expr.lift (e : Expr F) : Expr (F × ℝ) := e.mapNum SmartNum.lift

theorem wf_lift {e : Expr F} (he : WF SmartNum.Valid e) : WF SmartNum.Valid e.lift := by
  unfold Expr.lift
  induction he with
  | num n hn => rw [mapNum_ofNum]; exact .num _ (SmartNum.valid_lift hn)
  | var v => rw [mapNum_ofVar]; exact .var _
  | neg a _ i => rw [mapNum_neg]; exact .neg _ i
  | sin a _ i => rw [mapNum_sin]; exact .sin _ i
  | cos a _ i => rw [mapNum_cos]; exact .cos _ i
  | exp a _ i => rw [mapNum_exp]; exact .exp _ i
  | ln a _ i => rw [mapNum_ln]; exact .ln _ i
  | add a b _ _ i j => rw [mapNum_add]; exact .add _ _ i j
  | sub a b _ _ i j => rw [mapNum_sub]; exact .sub _ _ i j
  | mul a b _ _ i j => rw [mapNum_mul]; exact .mul _ _ i j
  | div a b _ _ i j => rw [mapNum_div]; exact .div _ _ i j
  | pow a b _ _ i j => rw [mapNum_pow]; exact .pow _ _ i j

theorem map_lift {e : Expr F} (he : WF SmartNum.Valid e) : e.lift.map Prod.fst = e := by
  unfold Expr.lift
  induction he with
  | num n hn => rw [mapNum_ofNum, map_ofNum, SmartNum.map_lift hn]
  | _ => simp_all

theorem denote_lift {e : Expr F} (he : Tree e) {env : Env} {r : ℝ} (h : denote SmartNum.exactReal env e = some r) :
    denote SmartNum.value? env e.lift = some r :=
  denote_mapNum he (fun _ _ _ => SmartNum.value?_lift) h

theorem denote_unmap {e : Expr (F × ℝ)} (he : WF SmartNum.Valid e) {env : Env} {r : ℝ}
    (h : denote SmartNum.exactReal env (e.map Prod.fst) = some r) : denote SmartNum.value? env e = some r := by
  induction he generalizing r with
  | num n hn =>
    rw [map_ofNum, denote_ofNum] at h
    rw [denote_ofNum]; exact SmartNum.value?_of_exactReal hn h
  | var v => simpa using h
  | neg a _ i => rw [map_neg] at h; obtain ⟨u, hu, h⟩ := denote_neg.1 h; exact denote_neg.2 ⟨u, i hu, h⟩
  | sin a _ i => rw [map_sin] at h; obtain ⟨u, hu, h⟩ := denote_sin.1 h; exact denote_sin.2 ⟨u, i hu, h⟩
  | cos a _ i => rw [map_cos] at h; obtain ⟨u, hu, h⟩ := denote_cos.1 h; exact denote_cos.2 ⟨u, i hu, h⟩
  | exp a _ i => rw [map_exp] at h; obtain ⟨u, hu, h⟩ := denote_exp.1 h; exact denote_exp.2 ⟨u, i hu, h⟩
  | ln a _ i => rw [map_ln] at h; obtain ⟨u, hu, h⟩ := denote_ln.1 h; exact denote_ln.2 ⟨u, i hu, h⟩
  | add a b _ _ i j =>
    rw [map_add] at h; obtain ⟨u, v, hu, hv, h⟩ := denote_add.1 h; exact denote_add.2 ⟨u, v, i hu, j hv, h⟩
  | sub a b _ _ i j =>
    rw [map_sub] at h; obtain ⟨u, v, hu, hv, h⟩ := denote_sub.1 h; exact denote_sub.2 ⟨u, v, i hu, j hv, h⟩
  | mul a b _ _ i j =>
    rw [map_mul] at h; obtain ⟨u, v, hu, hv, h⟩ := denote_mul.1 h; exact denote_mul.2 ⟨u, v, i hu, j hv, h⟩
  | div a b _ _ i j =>
    rw [map_div] at h; obtain ⟨u, v, hu, hv, h⟩ := denote_div.1 h; exact denote_div.2 ⟨u, v, i hu, j hv, h⟩
  | pow a b _ _ i j =>
    rw [map_pow] at h; obtain ⟨u, v, hu, hv, h⟩ := denote_pow.1 h; exact denote_pow.2 ⟨u, v, i hu, j hv, h⟩

/-! ### subterms of a mapped expression -/
section
omit [FloatOps F]
variable {G : Type} {g : SmartNum F → SmartNum G}

theorem subterm_mapNum {s e' : Expr G} (h : Subterm s e') :
    ∀ e : Expr F, e' = e.mapNum g → ∃ s0, Subterm s0 e ∧ s = s0.mapNum g := by
  induction h with
  | refl => intro e he; exact ⟨e, .refl, he⟩
  | child r c a ha hs ih =>
    intro e he
    have hc := congrArg Expr.child he
    rw [child_mapNum] at hc
    change c = _ at hc
    rw [hc, List.mem_map] at ha
    obtain ⟨a0, h0, rfl⟩ := ha
    obtain ⟨s0, h1, h2⟩ := ih a0 rfl
    obtain ⟨r0, c0⟩ := e
    exact ⟨s0, .child r0 c0 a0 h0 h1, h2⟩

theorem subterm_map_of {s e : Expr F} (h : Subterm s e) : Subterm (s.mapNum g) (e.mapNum g) := by
  induction h with
  | refl => exact .refl
  | child r c a ha hs ih =>
    have : (Expr.mk r c).mapNum g = .mk ((Expr.mk r c).mapNum g).root (c.map (mapNum g)) := by
      rcases r with _ | (_ | _) <;> simp [mapNum, mapNumList_eq, Expr.root]
    rw [this]
    exact .child _ _ _ (List.mem_map_of_mem ha) ih

theorem unary_mapNum {op : AstOperator} {a : Expr G} {s : Expr F}
    (h : (Expr.mk (.operator op) [a] : Expr G) = s.mapNum g) :
    ∃ a0, s = .mk (.operator op) [a0] ∧ a = a0.mapNum g := by
  rcases s with ⟨_ | (_ | _), c⟩ <;> simp [mapNum, mapNumList_eq] at h
  obtain ⟨rfl, h⟩ := h
  rcases c with _ | ⟨a0, _ | _⟩ <;> simp at h
  exact ⟨a0, rfl, h⟩

theorem binary_mapNum {op : AstOperator} {a b : Expr G} {s : Expr F}
    (h : (Expr.mk (.operator op) [a, b] : Expr G) = s.mapNum g) :
    ∃ a0 b0, s = .mk (.operator op) [a0, b0] ∧ a = a0.mapNum g ∧ b = b0.mapNum g := by
  rcases s with ⟨_ | (_ | _), c⟩ <;> simp [mapNum, mapNumList_eq] at h
  obtain ⟨rfl, h⟩ := h
  rcases c with _ | ⟨a0, _ | ⟨b0, _ | _⟩⟩ <;> simp at h
  exact ⟨a0, b0, rfl, h.1, h.2⟩

theorem ofNum_mapNum {n : SmartNum G} {s : Expr F} (h : (Expr.ofNum n : Expr G) = s.mapNum g) :
    ∃ n0, s = Expr.ofNum n0 ∧ n = g n0 := by
  rcases s with ⟨_ | (k | _), c⟩ <;> simp [mapNum, mapNumList_eq, ofNum] at h
  obtain ⟨rfl, rfl⟩ := h
  exact ⟨k, rfl, rfl⟩

theorem occurs_mapNum {e : Expr F} (he : Tree e) (x : Variable) : Occurs x (e.mapNum g) ↔ Occurs x e := by
  induction he <;> simp_all

theorem noLn_mapNum {e : Expr F} (h : NoLn e) : NoLn (e.mapNum g) := by
  intro a ha
  obtain ⟨s0, h0, h1⟩ := subterm_mapNum ha e rfl
  obtain ⟨a0, rfl, -⟩ := unary_mapNum (op := genOpLn) h1
  exact h a0 h0

theorem wf_sub {P : SmartNum F → Prop} {s e : Expr F} (he : WF P e) (h : Subterm s e) : WF P s := by
  induction h with
  | refl => exact he
  | child r c a ha hs ih =>
    refine ih ?_
    generalize hg : Expr.mk r c = e at he
    cases he <;> simp only [ofNum, ofVar, newVariable, Expr.neg, Expr.sin, Expr.cos, Expr.exp, Expr.ln, Expr.add,
      Expr.sub, Expr.mul, Expr.div, Expr.pow, Expr.mk.injEq] at hg <;> obtain ⟨-, rfl⟩ := hg <;>
      simp at ha <;> first | (subst ha; assumption) | (rcases ha with rfl | rfl <;> assumption)
theorem tree_sub {s e : Expr F} (he : Tree e) (h : Subterm s e) : Tree s := wf_sub he h
end

/-! ### the restrictions -/

theorem Avoids.lift {E E' : Set Env} (hE : E ⊆ E') {a : Expr F} (ha : Tree a) {c : ℝ}
    (h : Avoids SmartNum.exactReal E a c) : Avoids SmartNum.value? E' a.lift c := by
  obtain ⟨env, he, r, hr, hc⟩ := h
  exact ⟨env, hE he, r, denote_lift ha hr, hc⟩

theorem Safe.lift {E E' : Set Env} (hE : E ⊆ E') {e : Expr F} (he : Tree e) (h : Safe SmartNum.exactReal E e) :
    Safe SmartNum.value? E' e.lift := by
  intro s hs
  obtain ⟨s0, h0, rfl⟩ := subterm_mapNum hs e rfl
  have t0 := tree_sub he h0
  refine ⟨?_, ?_, ?_, ?_⟩
  · intro a ha
    obtain ⟨a0, rfl, rfl⟩ := unary_mapNum (op := genOpCos) ha.symm
    exact ((h _ h0).cos a0 rfl).lift hE (tree_sub t0 (.child _ _ a0 (by simp) .refl))
  · intro a b ha
    obtain ⟨a0, b0, rfl, rfl, rfl⟩ := binary_mapNum (op := genOpPow) ha.symm
    exact ((h _ h0).pow_zero a0 b0 rfl).lift hE (tree_sub t0 (.child _ _ a0 (by simp) .refl))
  · intro a b ha
    obtain ⟨a0, b0, rfl, rfl, rfl⟩ := binary_mapNum (op := genOpPow) ha.symm
    exact ((h _ h0).pow_one a0 b0 rfl).lift hE (tree_sub t0 (.child _ _ a0 (by simp) .refl))
  · intro a b ha
    obtain ⟨a0, b0, rfl, rfl, rfl⟩ := binary_mapNum (op := genOpPow) ha.symm
    exact noLn_mapNum ((h _ h0).pow_ln a0 b0 rfl)

theorem SafeD.lift {E E' : Set Env} (hE : E ⊆ E') {e : Expr F} (he : Tree e) (h : SafeD SmartNum.exactReal E e) :
    SafeD SmartNum.value? E' e.lift := by
  refine ⟨h.1.lift hE he, ?_⟩
  intro s hs a ha
  obtain ⟨s0, h0, rfl⟩ := subterm_mapNum hs e rfl
  have t0 := tree_sub he h0
  obtain ⟨a0, rfl, rfl⟩ := unary_mapNum (op := genOpSin) ha.symm
  exact (h.2 _ h0 a0 rfl).lift hE (tree_sub t0 (.child _ _ a0 (by simp) .refl))

theorem RuleSafe.lift {m : Mode} {e : Expr F} (he : WF SmartNum.Valid e) (h : RuleSafe m e) : RuleSafe m e.lift := by
  intro s hs
  obtain ⟨s0, h0, rfl⟩ := subterm_mapNum hs e rfl
  have key : ∀ {a0 : Expr F} {a' : Expr (F × ℝ)}, Subterm a0 e → a0.lift.numAggregate m = .ok a' →
      a0.numAggregate m = .ok (a'.map Prod.fst) := by
    intro a0 a' hsub hagg
    have w := wf_sub he hsub
    have := numAggregate_map fstHom m (wf_lift w).tree
    rw [map_lift w, hagg] at this
    exact this
  have up : ∀ {a0 : Expr F} {r c}, a0 ∈ c → Subterm (.mk r c) e → Subterm a0 e :=
    fun hc hh => (Subterm.child _ _ _ hc .refl).trans hh
  refine ⟨?_, ?_⟩
  · intro a a' ha hagg
    obtain ⟨a0, rfl, rfl⟩ := unary_mapNum (op := genOpCos) ha.symm
    have := (h _ h0).cos a0 _ rfl (key (up (by simp) h0) hagg)
    simpa using this
  · intro a b a' ha hagg
    obtain ⟨a0, b0, rfl, rfl, rfl⟩ := binary_mapNum (op := genOpPow) ha.symm
    obtain ⟨h1, h2, h3⟩ := (h _ h0).pow a0 b0 _ rfl (key (up (by simp) h0) hagg)
    refine ⟨by simpa using h1, by simpa using h2, fun c hc => h3 (c.map Prod.fst) ?_⟩
    rw [hc, map_ln]


theorem PowOK.lift {env : Env} {x : Variable} {e : Expr F} (he : Tree e)
    (h : PowOK SmartNum.exactReal env x e) : PowOK SmartNum.value? env x e.lift := by
  intro s hs a b ha
  obtain ⟨s0, h0, rfl⟩ := subterm_mapNum hs e rfl
  have t0 := tree_sub he h0
  obtain ⟨a0, b0, rfl, rfl, rfl⟩ := binary_mapNum (op := genOpPow) ha.symm
  obtain ⟨u, hu, h⟩ := h _ h0 a0 b0 rfl
  refine ⟨u, denote_lift (tree_sub t0 (.child _ _ a0 (by simp) .refl)) hu, ?_⟩
  rw [occurs_mapNum (tree_sub t0 (.child _ _ b0 (by simp) .refl))]
  exact h

theorem NoLnIntoBase.lift {x : Variable} {v e : Expr F} (he : Tree e) (h : NoLnIntoBase x v e) :
    LnOK x v.lift e.lift := by
  intro s hs a b ha hx
  obtain ⟨s0, h0, rfl⟩ := subterm_mapNum hs e rfl
  have t0 := tree_sub he h0
  obtain ⟨a0, b0, rfl, rfl, rfl⟩ := binary_mapNum (op := genOpPow) ha.symm
  rw [occurs_mapNum (tree_sub t0 (.child _ _ a0 (by simp) .refl))] at hx
  exact noLn_iff.1 (noLn_mapNum (h a0 b0 h0 hx))

theorem atPoint_lift {x : Variable} {v : Expr F} (hv : Tree v) :
    AtPoint SmartNum.exactReal x v ⊆ AtPoint SmartNum.value? x v.lift := by
  rintro _ ⟨env, p, hp, rfl⟩
  exact ⟨env, p, denote_lift hv hp, rfl⟩

/-- A value anywhere means that all numbers have an exact value. -/
theorem denote_lift_eq {e : Expr F} (he : WF SmartNum.Valid e) {env0 : Env} {r : ℝ}
    (h : denote SmartNum.exactReal env0 e = some r) (env : Env) :
    denote SmartNum.value? env e.lift = denote SmartNum.exactReal env e := by
  unfold Expr.lift
  induction he generalizing r with
  | num n hn =>
    rw [denote_ofNum] at h
    rw [mapNum_ofNum, denote_ofNum, denote_ofNum, h, SmartNum.value?_lift h]
  | var v => simp
  | neg a _ i => obtain ⟨u, hu, h⟩ := denote_neg.1 h; rw [mapNum_neg, denote_neg', denote_neg', i hu]
  | sin a _ i => obtain ⟨u, hu, h⟩ := denote_sin.1 h; rw [mapNum_sin, denote_sin', denote_sin', i hu]
  | cos a _ i => obtain ⟨u, hu, h⟩ := denote_cos.1 h; rw [mapNum_cos, denote_cos', denote_cos', i hu]
  | exp a _ i => obtain ⟨u, hu, h⟩ := denote_exp.1 h; rw [mapNum_exp, denote_exp', denote_exp', i hu]
  | ln a _ i => obtain ⟨u, hu, h⟩ := denote_ln.1 h; rw [mapNum_ln, denote_ln', denote_ln', i hu]
  | add a b _ _ i j =>
    obtain ⟨u, v, hu, hv, h⟩ := denote_add.1 h; rw [mapNum_add, denote_add', denote_add', i hu, j hv]
  | sub a b _ _ i j =>
    obtain ⟨u, v, hu, hv, h⟩ := denote_sub.1 h; rw [mapNum_sub, denote_sub', denote_sub', i hu, j hv]
  | mul a b _ _ i j =>
    obtain ⟨u, v, hu, hv, h⟩ := denote_mul.1 h; rw [mapNum_mul, denote_mul', denote_mul', i hu, j hv]
  | div a b _ _ i j =>
    obtain ⟨u, v, hu, hv, h⟩ := denote_div.1 h; rw [mapNum_div, denote_div', denote_div', i hu, j hv]
  | pow a b _ _ i j =>
    obtain ⟨u, v, hu, hv, h⟩ := denote_pow.1 h; rw [mapNum_pow, denote_pow', denote_pow', i hu, j hv]

theorem fn_lift {e : Expr F} (he : WF SmartNum.Valid e) {env0 : Env} {r : ℝ}
    (h : denote SmartNum.exactReal env0 e = some r) (env : Env) (x : Variable) :
    fn SmartNum.value? env x e.lift = fn SmartNum.exactReal env x e := by
  funext t; unfold fn; rw [denote_lift_eq he h]

omit [FloatOps F] in
theorem noFloat_iff {e : Expr F} : NoFloat e ↔
    Everywhere (fun s => ∀ n : SmartNum F, s = ofNum n → n.tag = .pi ∨ n.tag = .e ∨ n.NonFloat) e :=
  ⟨fun h s hs n hn => h n (hn ▸ hs), fun h n hn => h _ hn n rfl⟩

theorem denote_map {e : Expr (F × ℝ)} (he : WF SmartNum.Valid e) {env : Env} {r : ℝ}
    (h : denote SmartNum.value? env e = some r) (hf : NoFloat (e.map Prod.fst)) :
    denote SmartNum.exactReal env (e.map Prod.fst) = some r := by
  have sub1 : ∀ {op : AstOperator} {a : Expr F}, NoFloat (.mk (.operator op) [a]) → NoFloat a :=
    fun h n hn => h n (.child _ _ _ (by simp) hn)
  have sub2 : ∀ {op : AstOperator} {a b : Expr F}, NoFloat (.mk (.operator op) [a, b]) → NoFloat a ∧ NoFloat b :=
    fun h => ⟨fun n hn => h n (.child _ _ _ (List.mem_cons_self) hn),
      fun n hn => h n (.child _ _ _ (List.mem_cons_of_mem _ List.mem_cons_self) hn)⟩
  induction he generalizing r with
  | num n hn =>
    rw [denote_ofNum] at h
    rw [map_ofNum, denote_ofNum]
    exact SmartNum.exactReal_of_value? hn h (hf _ (by rw [map_ofNum]; exact .refl))
  | var v => simpa using h
  | neg a _ i =>
    rw [map_neg] at hf ⊢; obtain ⟨u, hu, h⟩ := denote_neg.1 h; exact denote_neg.2 ⟨u, i hu (sub1 hf), h⟩
  | sin a _ i =>
    rw [map_sin] at hf ⊢; obtain ⟨u, hu, h⟩ := denote_sin.1 h; exact denote_sin.2 ⟨u, i hu (sub1 hf), h⟩
  | cos a _ i =>
    rw [map_cos] at hf ⊢; obtain ⟨u, hu, h⟩ := denote_cos.1 h; exact denote_cos.2 ⟨u, i hu (sub1 hf), h⟩
  | exp a _ i =>
    rw [map_exp] at hf ⊢; obtain ⟨u, hu, h⟩ := denote_exp.1 h; exact denote_exp.2 ⟨u, i hu (sub1 hf), h⟩
  | ln a _ i =>
    rw [map_ln] at hf ⊢; obtain ⟨u, hu, h⟩ := denote_ln.1 h; exact denote_ln.2 ⟨u, i hu (sub1 hf), h⟩
  | add a b _ _ i j =>
    rw [map_add] at hf ⊢; obtain ⟨u, v, hu, hv, h⟩ := denote_add.1 h
    exact denote_add.2 ⟨u, v, i hu (sub2 hf).1, j hv (sub2 hf).2, h⟩
  | sub a b _ _ i j =>
    rw [map_sub] at hf ⊢; obtain ⟨u, v, hu, hv, h⟩ := denote_sub.1 h
    exact denote_sub.2 ⟨u, v, i hu (sub2 hf).1, j hv (sub2 hf).2, h⟩
  | mul a b _ _ i j =>
    rw [map_mul] at hf ⊢; obtain ⟨u, v, hu, hv, h⟩ := denote_mul.1 h
    exact denote_mul.2 ⟨u, v, i hu (sub2 hf).1, j hv (sub2 hf).2, h⟩
  | div a b _ _ i j =>
    rw [map_div] at hf ⊢; obtain ⟨u, v, hu, hv, h⟩ := denote_div.1 h
    exact denote_div.2 ⟨u, v, i hu (sub2 hf).1, j hv (sub2 hf).2, h⟩
  | pow a b _ _ i j =>
    rw [map_pow] at hf ⊢; obtain ⟨u, v, hu, hv, h⟩ := denote_pow.1 h
    exact denote_pow.2 ⟨u, v, i hu (sub2 hf).1, j hv (sub2 hf).2, h⟩

/-- `r` is the value of `e` as far as `e` has an exact value: any exact value is `r`, and there is one if `e`
contains no rounded float. -/
theorem denote_down {e : Expr (F × ℝ)} (he : WF SmartNum.Valid e) {env : Env} {r : ℝ}
    (h : denote SmartNum.value? env e = some r) :
    StandsFor env (e.map Prod.fst) r := by
  refine ⟨fun r' h' => ?_, denote_map he h⟩
  have := denote_unmap he h'
  rw [h] at this
  exact (Option.some.inj this).symm

/-! ### the three functions -/

theorem numAggregate_lift {m : Mode} {e e' : Expr F} (he : WF SmartNum.Valid e) (h : e.numAggregate m = .ok e') :
    ∃ d, e.lift.numAggregate m = .ok d ∧ d.map Prod.fst = e' ∧ WF SmartNum.Valid d := by
  have := numAggregate_map fstHom m (wf_lift he).tree
  rw [map_lift he, h] at this
  obtain ⟨d, h1, h2⟩ := Res.map_eq_ok.1 this.symm
  exact ⟨d, h1, h2, (agg_of_numAggregate (wf_lift he).tree h1).wf (numClosed_valid m) (wf_lift he)⟩

theorem derivative_lift {m : Mode} {x : Variable} {e e' : Expr F} (he : WF SmartNum.Valid e)
    (h : e.derivative m x = .ok e') :
    ∃ d, e.lift.derivative m x = .ok d ∧ d.map Prod.fst = e' ∧ WF SmartNum.Valid d := by
  have := derivative_map fstHom m x (wf_lift he).tree
  rw [map_lift he, h] at this
  obtain ⟨d, h1, h2⟩ := (Out.bimap_eq_ok _ _).1 this.symm
  exact ⟨d, h1, h2, (der_of_derivative (wf_lift he).tree h1).wf (numClosed_valid m) (wf_lift he)⟩

theorem taylorExpansion_lift {m : Mode} {x : Variable} {e v : Expr F} {n : UInt64} {t : PartialExpansion F}
    (he : WF SmartNum.Valid e) (hv : WF SmartNum.Valid v) (h : e.taylorExpansion m x v n = .ok t) :
    ∃ d, e.lift.taylorExpansion m x v.lift n = .ok d ∧ d.map Prod.fst = t ∧
      ∀ c ∈ d.coefficient, WF SmartNum.Valid c := by
  have := taylorExpansion_map fstHom m x (wf_lift he).tree (wf_lift hv).tree n
  rw [map_lift he, map_lift hv, h] at this
  obtain ⟨d, h1, h2⟩ := (Out.bimap_eq_ok _ _).1 this.symm
  refine ⟨d, h1, h2, ?_⟩
  rw [taylorExpansion_state] at h1
  obtain ⟨s, hs, h1⟩ := Out.bind_eq_ok.1 h1
  cases h1
  exact (taylorState_wf (numClosed_valid m) (fun _ _ => SmartNum.valid_ofU64) (wf_lift hv) (wf_lift he) _ hs).1

end SymRust
