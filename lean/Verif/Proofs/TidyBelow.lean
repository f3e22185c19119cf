import Verif.Proofs.Folds

/-!
# Which nodes of a result may be marked

Every node that `make_internal_node` returns is marked and its sons are not.  So the nodes of the result of a recursion
that are marked are its root and nodes that were returned but are not yet sons.
-/

namespace Teddy

open SM

section
variable {E : Env} {ext : Ptr → Nat} {s : Mgr}

/-- The marked nodes below `r` are among `L`. -/
def TidyBelow (L : Ptr → Prop) (r : Ptr) (s : Mgr) : Prop := ∀ t, Reach s.kind r t → s.mark t = true → L t

theorem TidyBelow.step {L : Ptr → Prop} {r q : Ptr} {s' : Mgr} (h : TidyBelow L r s) (hp : Prot ext [] s r)
    (st : Step E ext s q s') : TidyBelow (fun t => t = q ∨ L t) r s' := by
  intro t ht hm
  rcases st.mark t hm with h1 | h1
  · exact .inl h1
  · exact .inr (h t (ht.keeps st.keeps hp) h1)

theorem TidyBelow.mono {L L' : Ptr → Prop} {r : Ptr} (h : TidyBelow L r s) (hL : ∀ t, L t → L' t) : TidyBelow L' r s :=
  fun t h1 h2 => hL t (h t h1 h2)

theorem reach_leaf {kind : Ptr → Kind} {p t : Ptr} {v : Int} (hk : kind p = .leaf v) (h : Reach kind p t) : t = p := by
  cases h with
  | refl => rfl
  | step h1 _ _ => rw [hk] at h1; cases h1

theorem TidyBelow.leaf {L : Ptr → Prop} {r : Ptr} {v : Int} (hk : s.kind r = .leaf v) :
    TidyBelow (fun t => t = r ∨ L t) r s :=
  fun _ h1 _ => .inl (reach_leaf hk h1)

/-- Making a node whose sons are the pending results: these are pending no more. -/
theorem TidyBelow.made {L : Ptr → Prop} {q r : Ptr} {sons : List Ptr} {s' : Mgr} (k : Keeps ext [] s s')
    (hm : ∀ p, s'.mark p = true → p = r ∨ (s.mark p = true ∧ p ∉ sons)) (hq : Prot ext [] s q)
    (h : TidyBelow (fun p => p ∈ sons ∨ L p) q s) : TidyBelow (fun t => t = r ∨ L t) q s' := by
  intro u h1 h2
  rcases hm u h2 with h3 | ⟨h3, h4⟩
  · exact .inl h3
  · rcases h u (h1.keeps k hq) h3 with h5 | h5
    · exact absurd h5 h4
    · exact .inr h5

/-- The new node itself. -/
theorem TidyBelow.new {L : Ptr → Prop} {r : Ptr} {i : Nat} {sons : List Ptr} {s' : Mgr} (k : Keeps ext [] s s')
    (hm : ∀ p, s'.mark p = true → p = r ∨ (s.mark p = true ∧ p ∉ sons)) (hp : ∀ q ∈ sons, Prot ext [] s q)
    (h : ∀ q ∈ sons, TidyBelow (fun p => p ∈ sons ∨ L p) q s) (hres : InternalRes s i sons r s') :
    TidyBelow (fun t => t = r ∨ L t) r s' := by
  rcases hres with ⟨_, _, h1, _⟩ | ⟨_, h1, _⟩
  · exact (h r h1).made k hm (hp r h1)
  · intro u hu hmu
    cases hu with
    | refl => exact .inl rfl
    | step h2 h3 h4 =>
        rw [h1] at h2
        cases h2
        exact (h _ h3).made k hm (hp _ h3) u h4 hmu

/-- `mapAccL_goodQ`, with the marks: `mem t r` says that `r` is stored in the memo table `t`. -/
theorem mapAccL_tidy {α τ : Type} {F : α → τ → M (Ptr × τ)} {Q : α → Ptr → Mgr → Prop}
    (hQ : ∀ a r s s', Keeps ext [] s s' → Prot ext [] s r → Q a r s → Q a r s') {T : τ → Mgr → Prop}
    {mem : τ → Ptr → Prop} (s0 : Mgr) :
    ∀ (l : List α), (∀ a ∈ l, ∀ L t s, Good E ext s → Keeps ext [] s0 s → T t s → (∀ q, mem t q → TidyBelow L q s) →
        Ok (F a t) s (fun r s' => Step E ext s r.1 s' ∧ Q a r.1 s' ∧ T r.2 s' ∧
          TidyBelow (fun p => p = r.1 ∨ L p) r.1 s' ∧ ∀ q, mem r.2 q → TidyBelow (fun p => p = r.1 ∨ L p) q s')) →
      ∀ L t s, Good E ext s → Keeps ext [] s0 s → T t s → (∀ q, mem t q → TidyBelow L q s) →
      Ok (mapAccL F l t) s (fun r s' => Good E ext s' ∧ Keeps ext [] s s' ∧
        r.1.length = l.length ∧ (∀ q ∈ r.1, Prot ext [] s' q) ∧
        (∀ (k : Nat) a q, l[k]? = some a → r.1[k]? = some q → Q a q s') ∧
        (∀ p, s'.mark p = true → p ∈ r.1 ∨ s.mark p = true) ∧ T r.2 s' ∧
        (∀ q ∈ r.1, TidyBelow (fun p => p ∈ r.1 ∨ L p) q s') ∧
        ∀ q, mem r.2 q → TidyBelow (fun p => p ∈ r.1 ∨ L p) q s') := by
  intro l
  induction l with
  | nil =>
      intro _ L t s g _ ht hL
      exact Ok.pure ⟨g, Keeps.refl s, rfl, by simp, by simp, fun p h => .inr h, ht, by simp,
        fun q hq => (hL q hq).mono fun _ h => .inr h⟩
  | cons a l ih =>
      intro hF L t s g k0 ht hL
      simp only [mapAccL]
      refine Ok.bind (hF a (by simp) L t s g k0 ht hL) ?_
      rintro ⟨r, t1⟩ s1 ⟨st, rep, ht1, tb1, mt1⟩
      dsimp only at st rep ht1 tb1 mt1 ⊢
      refine Ok.bind (ih (fun b hb => hF b (by simp [hb])) _ t1 s1 st.good (k0.trans st.keeps) ht1 mt1) ?_
      rintro ⟨rs, t2⟩ s2 ⟨g2, k2, hl, hp, hr, hmk, ht2, tb2, mt2⟩
      dsimp only at hl hp hr hmk ht2 tb2 mt2 ⊢
      have more : ∀ p, (p ∈ rs ∨ p = r ∨ L p) → p ∈ r :: rs ∨ L p := by
        rintro p (h | rfl | h)
        · exact .inl (List.mem_cons_of_mem _ h)
        · exact .inl (List.mem_cons_self ..)
        · exact .inr h
      refine Ok.pure ⟨g2, st.keeps.trans k2, by simp [hl], ?_, ?_, ?_, ht2, ?_, fun q hq => (mt2 q hq).mono more⟩
      · intro q hq
        rcases List.mem_cons.1 hq with rfl | hq
        · exact k2.prot _ st.prot
        · exact hp q hq
      · intro k b q hb hq
        cases k with
        | zero =>
            simp only [List.getElem?_cons_zero, Option.some.injEq] at hb hq
            subst hb; subst hq
            exact hQ _ _ _ _ k2 st.prot rep
        | succ k =>
            simp only [List.getElem?_cons_succ] at hb hq
            exact hr k b q hb hq
      · intro p h
        rcases hmk p h with h1 | h1
        · exact .inl (List.mem_cons_of_mem _ h1)
        · rcases st.mark p h1 with h2 | h2
          · exact .inl (by rw [h2]; exact List.mem_cons_self ..)
          · exact .inr h2
      · intro q hq
        rcases List.mem_cons.1 hq with rfl | hq
        · intro p h1 h2
          refine more p ?_
          rcases hmk p h2 with h3 | h3
          · exact .inl h3
          · exact .inr (tb1 p (h1.keeps k2 st.prot) h3)
        · exact (tb2 q hq).mono more

end

end Teddy
