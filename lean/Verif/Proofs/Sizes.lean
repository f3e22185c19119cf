import Verif.Proofs.Observe
import Mathlib.Data.List.ProdSigma

/-! Sizes of results: how the number of different subfunctions changes under the operations. -/

namespace Teddy

open Spec

/-- A list of functions that covers all functions with property `F` has at least as many elements as there are
such functions. -/
theorem Spec.CountFuns.le {n : Nat} {dom : Nat → Nat} {F : (Asg → Int) → Prop} {k : Nat} (h : CountFuns n dom F k)
    (hs : List (Asg → Int)) (hc : ∀ g, F g → ∃ u ∈ hs, SameOn n dom g u) : k ≤ hs.length := by
  obtain ⟨gs, rfl, hp, hF, -⟩ := h
  have hc' : ∀ g : Asg → Int, ∃ i, F g → i < hs.length ∧ ∃ u, hs[i]? = some u ∧ SameOn n dom g u := by
    intro g
    by_cases hg : F g
    · obtain ⟨u, hu, s⟩ := hc g hg
      obtain ⟨i, hi, rfl⟩ := List.mem_iff_getElem.1 hu
      exact ⟨i, fun _ => ⟨hi, _, List.getElem?_eq_getElem hi, s⟩⟩
    · exact ⟨0, fun h => absurd h hg⟩
  choose φ hφ using hc'
  have hnd : (gs.map φ).Nodup := by
    rw [List.Nodup, List.pairwise_map]
    refine (List.pairwise_iff_forall_sublist.2 ?_)
    intro a b hab
    have hne := List.pairwise_iff_forall_sublist.1 hp hab
    obtain ⟨-, u, hu, su⟩ := hφ a (hF a (hab.subset (by simp)))
    obtain ⟨-, v, hv, sv⟩ := hφ b (hF b (hab.subset (by simp)))
    intro e
    rw [e, hv] at hu
    cases hu
    exact hne (su.trans sv.symm)
  have hsub : gs.map φ ⊆ List.range hs.length := by
    intro i hi
    obtain ⟨g, hg, rfl⟩ := List.mem_map.1 hi
    exact List.mem_range.2 (hφ g (hF g hg)).1
  have := (List.subperm_of_subset hnd hsub).length_le
  simpa using this

/-- A pointwise operation: one subfunction for each pair of subfunctions. -/
theorem countSubs_binary {n : Nat} {dom : Nat → Nat} {order : List Nat} {f g : Asg → Int} {op : Int → Int → Int}
    {ka kb k : Nat} (ha : CountFuns n dom (Subfunction n dom order f) ka)
    (hb : CountFuns n dom (Subfunction n dom order g) kb)
    (h : CountFuns n dom (Subfunction n dom order fun x => op (f x) (g x)) k) : k ≤ ka * kb := by
  obtain ⟨fs, rfl, -, -, hf⟩ := ha
  obtain ⟨gs, rfl, -, -, hg⟩ := hb
  have := h.le ((fs ×ˢ gs).map fun t x => op (t.1 x) (t.2 x)) ?_
  · rw [List.length_map, List.length_product] at this
    exact this
  · rintro _ ⟨l, y, hy, rfl⟩
    obtain ⟨u, hu, su⟩ := hf _ ⟨l, y, hy, rfl⟩
    obtain ⟨v, hv, sv⟩ := hg _ ⟨l, y, hy, rfl⟩
    exact ⟨_, List.mem_map.2 ⟨(u, v), List.mem_product.2 ⟨hu, hv⟩, rfl⟩,
      fun x hx => congrArg₂ op (su x hx) (sv x hx)⟩

/-- A transformation of the values. -/
theorem countSubs_unary {n : Nat} {dom : Nat → Nat} {order : List Nat} {f : Asg → Int} {t : Int → Int}
    {ka k : Nat} (ha : CountFuns n dom (Subfunction n dom order f) ka)
    (h : CountFuns n dom (Subfunction n dom order fun x => t (f x)) k) : k ≤ ka := by
  obtain ⟨fs, rfl, -, -, hf⟩ := ha
  have := h.le (fs.map fun u x => t (u x)) ?_
  · simpa using this
  · rintro _ ⟨l, y, hy, rfl⟩
    obtain ⟨u, hu, su⟩ := hf _ ⟨l, y, hy, rfl⟩
    exact ⟨_, List.mem_map.2 ⟨u, hu, rfl⟩, fun x hx => congrArg t (su x hx)⟩

private theorem inDomain_upd' {n : Nat} {dom : Nat → Nat} {x : Asg} (hx : InDomain n dom x) {i v : Nat}
    (hv : i < n → v < dom i) : InDomain n dom (upd x i v) := by
  intro j hj
  by_cases h : j = i
  · subst h
    simpa using hv hj
  · rw [upd_apply, if_neg h]
    exact hx j hj

/-- Fixing a variable. -/
theorem countSubs_cofactor {n : Nat} {dom : Nat → Nat} {order : List Nat} {f : Asg → Int} {i v : Nat}
    (hv : i < n → v < dom i) {ka k : Nat} (ha : CountFuns n dom (Subfunction n dom order f) ka)
    (h : CountFuns n dom (Subfunction n dom order fun x => f (upd x i v)) k) : k ≤ ka := by
  obtain ⟨fs, rfl, -, -, hf⟩ := ha
  have := h.le (fs.map fun u x => u (upd x i v)) ?_
  · simpa using this
  · rintro _ ⟨l, y, hy, rfl⟩
    obtain ⟨u, hu, su⟩ := hf _ ⟨l, upd y i v, inDomain_upd' hy hv, rfl⟩
    refine ⟨_, List.mem_map.2 ⟨u, hu, rfl⟩, fun x hx => ?_⟩
    dsimp only
    rw [← su _ (inDomain_upd' hx hv)]
    congr 1
    funext j
    by_cases hj : j = i
    · subst hj
      simp [fixFirst]
    · simp [fixFirst, upd_apply, hj]

variable {P : Setup} {w : World} {σ : SState}

/-- A call that makes a diagram of `f`, and the number of its nodes. -/
theorem made_size {k : Call} (hP : P.OK) (h : Reachable P w σ) (hcan : σ.canon = true) (hclean : σ.clean = true)
    (hk : Adm P σ k) {f : Asg → Int} (hm : made P.c σ k = some f)
    (hn : ∀ o, next P.c σ k o = { σ with slots := σ.slots ++ [some f] })
    (ha : k.defers = true → σ.auto = false := by no_defer) :
    ∃ w' m, exec P.c k w = .ok (.slot w.slots.length, w') ∧
      exec P.c (.nodeCountOf w.slots.length) w' = .ok (.nat m, w') ∧
      CountFuns P.c.n P.c.dom (Subfunction P.c.n P.c.dom σ.order f) m := by
  have R := reachable_rel hP h
  obtain ⟨o, w', e, ho, -⟩ := sim R hk ha
  have h' := h.step hk e ha
  rw [hn] at h'
  have ho : o = .slot w.slots.length := by
    rw [R.len]
    cases k <;> first | exact ho | cases hm
  subst ho
  have hh : SState.Has { σ with slots := σ.slots ++ [some f] } w.slots.length f := by
    simp [SState.Has, R.len]
  obtain ⟨o, e', m, rfl, -, hc⟩ := asks (k := .nodeCountOf w.slots.length) hP h' ⟨hclean, f, hh⟩ rfl
  have hc := hc hcan
  rw [hh.fn] at hc
  exact ⟨w', m, e, e', hc⟩

end Teddy
