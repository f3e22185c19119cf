import Verif.Symbolic
import Verif.Proofs.Observe

/-! Symbolic availability: the expressions stored for the nodes, evaluated at a time, are probabilities. -/

namespace Teddy

open SM Spec

section
variable {E : Env} {ext : Ptr → Nat} {S : Mgr} {root : Ptr}

/-- The real probabilities at time `t`. -/
noncomputable def probsAt (pr : Nat → Nat → Sym) (t : ℝ) (i k : Nat) : ℝ := (pr i k).eval t

/-- `d` is right for node `q`. -/
def SymOK (c : Cfg) (S : Mgr) (pr : Nat → Nat → Sym) (state : Int) (q : Ptr) (e : Sym) : Prop :=
  ∀ t, Sums c (probsAt pr t) →
    e.eval t = prOf c S (probsAt pr t) (fun a => if decide (a ≥ state) then 1 else 0) q

open Classical in
theorem symTerminals_ok (h : Inv E.c ext [] S) (state : Int) :
    Ok (foldL (fun o (m : Ptr → Option Sym) => match o with
    | some p => do
        match ← getKind p with
        | .leaf v => pure (upd m p (some (.num (if v ≥ state then 1 else 0))))
        | .inner _ _ => throw .assertion
    | none => pure m) S.terminals (fun _ => none)) S (fun m s' => s' = S ∧
      ∀ q, m q = if some q ∈ S.terminals then
        some (.num (if ∃ v : Int, S.kind q = .leaf v ∧ v ≥ state then 1 else 0)) else none) := by
  refine (foldL_rule (I := fun rest (m : Ptr → Option Sym) s' => s' = S ∧ ∃ done,
    S.terminals = done ++ rest ∧ ∀ q, m q = if some q ∈ done then
        some (.num (if ∃ v : Int, S.kind q = .leaf v ∧ v ≥ state then 1 else 0)) else none)
    ?_ S.terminals _ S ⟨rfl, [], by simp, by simp⟩).mono ?_
  · rintro o rest m s' ⟨rfl, done, hd, hm⟩
    cases o with
    | none =>
        refine Ok.pure ⟨rfl, done ++ [none], by simp [hd], ?_⟩
        intro q
        rw [hm q]
        simp
    | some p =>
        obtain ⟨v, hv⟩ := List.getElem?_of_mem (by rw [hd]; simp : some p ∈ s'.terminals)
        have hk := (h.termKind v p hv).1
        dsimp only
        refine Ok.bindEq (getKind_ok (h.termUsed hv)) ?_
        rw [hk]
        refine Ok.pure ⟨rfl, done ++ [some p], by simp [hd], ?_⟩
        intro q
        by_cases e : q = p
        · subst e
          simp [hk]
        · rw [upd_other _ _ e, hm q]
          simp [e]
  · rintro m s' ⟨rfl, done, hd, hm⟩
    simp only [List.append_nil] at hd
    exact ⟨rfl, by rw [hd]; exact hm⟩

/-- `symbolic_availability`. -/
theorem symbolicAvailability_ok (g : Good E ext S) (hp : S.used root = true) (hcl : CleanBelow S root)
    {f : Asg → Int} (hd : Den E.c S root f) (hU : ∀ x, Valid E.c x → f x ≠ Undefined) (state : Int)
    (pr : Nat → Nat → Sym) :
    Ok (symbolicAvailability E.c state pr root) S (fun e s' => s' = S ∧
      ∀ t, Sums E.c (probsAt pr t) → e.eval t = probability E.c.n E.c.dom (probsAt pr t)
        (fun x => decide (f x ≥ state))) := by
  have h := g.inv
  have ho := g.ord
  have hc := g.cfg
  have B : Below E.c S root := Below.of h ho hp
  unfold symbolicAvailability
  refine Ok.bindGet ?_
  refine Ok.bind (symTerminals_ok h state) ?_
  rintro m0 s' ⟨rfl, hm0⟩
  refine Ok.bind (traversePost_ok (I := fun ds (m : Ptr → Option Sym) d => d = s'.data ∧
    (∀ q, (q ∈ ds ∨ ∃ a, s'.kind q = .leaf a ∧ Reach s'.kind root q) →
      ∃ e, m q = some e ∧ SymOK E.c s' pr state q e) ∧
    ∀ q i ss, s'.kind q = .inner i ss → q ∉ ds → m q = none) B hcl ⟨rfl, ?_, ?_⟩ ?_) ?_
  · rintro q (hq | ⟨a, hk, hr⟩)
    · simp at hq
    · obtain ⟨v, rfl, hv⟩ := leaf_place h (B.used q hr) hk (leaf_defined g hp hd hU hr hk)
      refine ⟨_, by rw [hm0 q, if_pos (List.mem_of_getElem? hv)], ?_⟩
      intro t _
      rw [prOf_leaf hk]
      by_cases hv' : state ≤ (v : Int) <;> simp [Sym.eval, hk, hv']
  · intro q i ss hk _
    rw [hm0 q, if_neg]
    intro hq
    obtain ⟨v, hv⟩ := List.getElem?_of_mem hq
    rw [(h.termKind v q hv).1] at hk
    cases hk
  · rintro vs ds p m s hT ⟨hda, hI, hN⟩ hr hpd hsons
    have hup := B.used p hr
    have hus : s.used p = true := by rw [hT.used]; exact hup
    unfold symVisit
    refine Ok.bindEq (getKind_ok hus) ?_
    rw [hT.kind]
    cases hk : s'.kind p with
    | leaf a =>
        refine Ok.pure ⟨hT, hda, ?_, ?_⟩
        · rintro q (hq | hq)
          · rcases List.mem_append.1 hq with hq | hq
            · exact hI q (Or.inl hq)
            · simp at hq
              subst hq
              exact hI q (Or.inr ⟨a, hk, hr⟩)
          · exact hI q (Or.inr hq)
        · intro q i ss hkq hq
          exact hN q i ss hkq (fun e => hq (List.mem_append.2 (Or.inl e)))
    | inner i ss =>
        dsimp only
        obtain ⟨hi, hlen, hu⟩ := h.sons p i ss hup hk
        have hmp : m p = none := hN p i ss hk hpd
        rw [hmp]
        simp only [Option.isSome_none, Bool.and_false, Bool.false_eq_true, ↓reduceIte, Option.getD_none]
        refine (foldL_rule (I := fun rest (m' : Ptr → Option Sym) s'' => s'' = s ∧
          (∀ q, q ≠ p → m' q = m q) ∧ ∃ done, ss.zip (List.range ss.length) = done ++ rest ∧
          ∃ e, m' p = some e ∧ ∀ t, Sums E.c (probsAt pr t) → e.eval t = (done.map fun e =>
            prOf E.c s' (probsAt pr t) (fun a => if decide (a ≥ state) then 1 else 0) e.1 *
              probsAt pr t i e.2).sum) ?_ _ _ _
          ⟨rfl, ?_, [], by simp, .num 0, by simp, by simp [Sym.eval]⟩).mono ?_
        · rintro ⟨q, k⟩ rest m' s'' ⟨rfl, hoth, done, hz, e, hpv, he⟩
          have hq : q ∈ ss := by
            have : (q, k) ∈ ss.zip (List.range ss.length) := by rw [hz]; simp
            exact (List.of_mem_zip this).1
          have hlt := ho p i ss q hup hk hq
          have hqp : q ≠ p := by rintro rfl; omega
          have hqd : q ∈ ds := hsons q (by rw [sonsOf_inner hk]; exact hq)
          obtain ⟨eq, heq, hok⟩ := hI q (Or.inl hqd)
          dsimp only
          rw [hpv, hoth q hqp, heq]
          refine Ok.pure ⟨rfl, ?_, done ++ [(q, k)], by simp [hz], _, upd_same _ _ _, ?_⟩
          · intro q' hq'
            rw [upd_other _ _ hq', hoth q' hq']
          · intro t ht
            simp only [Sym.eval, List.map_append, List.sum_append, List.map_cons, List.map_nil, List.sum_cons,
              List.sum_nil, add_zero, he t ht, hok t ht]
            rfl
        · intro q hq
          rw [upd_other _ _ hq]
        · rintro m' s'' ⟨rfl, hoth, done, hz, e, hpv, he⟩
          simp only [List.append_nil] at hz
          have hpp : SymOK E.c s' pr state p e := by
            intro t ht
            rw [he t ht, prOf_inner h ho hc ht hup hk, hz]
          refine ⟨hT, hda, ?_, ?_⟩
          · intro q hq
            by_cases eq : q = p
            · rw [eq]; exact ⟨e, hpv, hpp⟩
            · rw [hoth q eq]
              refine hI q ?_
              rcases hq with hq | hq
              · rcases List.mem_append.1 hq with hq | hq
                · exact Or.inl hq
                · simp at hq; exact absurd hq eq
              · exact Or.inr hq
          · intro q j tt hkq hq
            have h1 : q ≠ p := by
              rintro rfl
              exact hq (by simp)
            rw [hoth q h1]
            exact hN q j tt hkq (fun e => hq (List.mem_append.2 (Or.inl e)))
  · rintro m s3 ⟨vs, _, hvs, e, hda, hI, _⟩
    obtain ⟨r, hr, hok⟩ := hI root (Or.inl ((hvs root).2 .refl))
    rw [hda] at e
    rw [hr]
    refine Ok.pure ⟨e, fun t ht => ?_⟩
    rw [hok t ht]
    exact prOf_root h ho hc ht hp hd (φ := fun a => decide (a ≥ state))

end

end Teddy
