import Verif.Proofs.ApplyN
import Verif.Proofs.OkE

/-! Depth-first traversals that use the mark bit. -/

namespace Teddy

open SM

/-- The state during a traversal: nodes in `vs` carry the mark `b`, nothing but data has changed
otherwise. -/
def TSt (S : Mgr) (M0 : Ptr → Bool) (b : Bool) (vs : List Ptr) (s : Mgr) : Prop :=
  s = { S with mark := fun q => if q ∈ vs then b else M0 q, data := s.data }

section
variable {c : Cfg} {ext : Ptr → Nat} {S s : Mgr} {M0 : Ptr → Bool} {b : Bool} {vs : List Ptr}
variable {root : Ptr}

theorem TSt.kind (h : TSt S M0 b vs s) : s.kind = S.kind := by rw [h]
theorem TSt.used (h : TSt S M0 b vs s) : s.used = S.used := by rw [h]
theorem TSt.i2l (h : TSt S M0 b vs s) : s.idx2lvl = S.idx2lvl := by rw [h]
theorem TSt.l2i (h : TSt S M0 b vs s) : s.lvl2idx = S.lvl2idx := by rw [h]
theorem TSt.mark (h : TSt S M0 b vs s) : s.mark = fun q => if q ∈ vs then b else M0 q := by rw [h]

theorem TSt.toggle (h : TSt S M0 b vs s) {p : Ptr} (hp : p ∉ vs) (hM : M0 p = !b) :
    TSt S M0 b (vs ++ [p]) { s with mark := upd s.mark p (!s.mark p) } := by
  have e : upd s.mark p (!s.mark p) = fun q => if q ∈ vs ++ [p] then b else M0 q := by
    funext q
    by_cases hq : q = p
    · subst hq
      simp [h.mark, hp, hM]
    · simp [upd_apply, hq, h.mark]
  unfold TSt
  dsimp only
  rw [e]
  rw [h]

/-- Facts about the graph below a root. -/
structure Below (c : Cfg) (S : Mgr) (root : Ptr) : Prop where
  used : ∀ p, Reach S.kind root p → S.used p = true
  lvl : ∀ p i ss q, Reach S.kind root p → S.kind p = .inner i ss → q ∈ ss →
    S.levelOf c p < S.levelOf c q
  le : ∀ p, Reach S.kind root p → S.levelOf c p ≤ c.n

theorem Reach.used {tmp : List Ptr} (h : Inv c ext tmp S) {p q : Ptr} (hr : Reach S.kind p q)
    (hp : S.used p = true) : S.used q = true := by
  induction hr with
  | refl => exact hp
  | step hk hq _ ih => exact ih ((h.sons _ _ _ hp hk).2.2 _ hq)

theorem Below.of {tmp : List Ptr} (h : Inv c ext tmp S) (ho : Ordered c S)
    (hp : S.used root = true) : Below c S root where
  used _ hr := hr.used h hp
  lvl p i ss q hr hk hq := ho p i ss q (hr.used h hp) hk hq
  le _ hr := levelOf_le h (hr.used h hp)

theorem Reach.snoc {kind : Ptr → Kind} {p q r : Ptr} {i : Nat} {ss : List Ptr}
    (h : Reach kind p q) (hk : kind q = .inner i ss) (hr : r ∈ ss) : Reach kind p r :=
  h.trans (.step hk hr .refl)

theorem sonsOf_mem {p q : Ptr} (h : q ∈ S.sonsOf p) : ∃ i ss, S.kind p = .inner i ss ∧ q ∈ ss := by
  cases hk : S.kind p with
  | leaf v => simp [sonsOf_leaf hk] at h
  | inner i ss => exact ⟨i, ss, rfl, by rwa [sonsOf_inner hk] at h⟩

theorem traversePreImpl_ok {τ : Type} {op : Ptr → τ → M τ}
    (I : List Ptr → τ → (Ptr → Option Rat) → Prop) (B : Below c S root)
    (hM : ∀ q, Reach S.kind root q → M0 q = !b)
    (hop : ∀ vs p t s, TSt S M0 b (vs ++ [p]) s → I vs t s.data → Reach S.kind root p → p ∉ vs →
      Ok (op p t) s (fun t' s' => TSt S M0 b (vs ++ [p]) s' ∧ I (vs ++ [p]) t' s'.data)) :
    ∀ (f : Nat) (p : Ptr) (vs : List Ptr) (t : τ) (s : Mgr), Reach S.kind root p → p ∉ vs →
      vs.Nodup → TSt S M0 b vs s → I vs t s.data → c.n - S.levelOf c p < f →
      Ok (traversePreImpl op f p t) s (fun t' s' => ∃ ws, TSt S M0 b (vs ++ ws) s' ∧
        I (vs ++ ws) t' s'.data ∧ (vs ++ ws).Nodup ∧ p ∈ ws ∧
        (∀ w ∈ ws, Reach S.kind root w) ∧ (∀ w ∈ ws, ∀ q ∈ S.sonsOf w, q ∈ vs ++ ws)) := by
  intro f
  induction f with
  | zero => intro p vs t s _ _ _ _ _ hf; omega
  | succ f ih =>
      intro p vs t s hp hv hnd hT hI hf
      have hu : s.used p = true := by rw [hT.used]; exact B.used p hp
      simp only [traversePreImpl]
      refine Ok.bindEq (toggleMarked_ok hu) ?_
      refine Ok.bind (hop vs p t _ (hT.toggle hv (hM p hp)) hI hp hv) ?_
      rintro t1 s1 ⟨hT1, hI1⟩
      have hu1 : s1.used p = true := by rw [hT1.used]; exact B.used p hp
      refine Ok.bindEq (getKind_ok hu1) ?_
      rw [hT1.kind]
      have hnd1 : (vs ++ [p]).Nodup := by
        rw [List.nodup_append]
        refine ⟨hnd, by simp, ?_⟩
        intro a ha b hb
        simp at hb
        subst hb
        exact fun e => hv (e ▸ ha)
      cases hk : S.kind p with
      | leaf v =>
          refine Ok.pure ⟨[p], hT1, hI1, hnd1, by simp, by simp [hp], ?_⟩
          intro w hw q hq
          simp at hw
          subst hw
          simp [sonsOf_leaf hk] at hq
      | inner i ss =>
          refine (foldL_rule (I := fun rest t s => (∀ q ∈ rest, q ∈ ss) ∧
            ∃ ws, TSt S M0 b (vs ++ ws) s ∧ I (vs ++ ws) t s.data ∧ (vs ++ ws).Nodup ∧ p ∈ ws ∧
              (∀ w ∈ ws, Reach S.kind root w) ∧
              (∀ w ∈ ws, w ≠ p → ∀ q ∈ S.sonsOf w, q ∈ vs ++ ws) ∧
              (∀ q ∈ ss, q ∈ rest ∨ q ∈ vs ++ ws)) ?_ ss t1 s1
            ⟨fun _ h => h, [p], hT1, hI1, hnd1, by simp, by simp [hp], ?_, fun q hq => Or.inl hq⟩).mono ?_
          · rintro q rest t2 s2 ⟨hsub, ws, h1, h2, h3, h4, h5, h6, h7⟩
            have hqs : q ∈ ss := hsub q (by simp)
            have hrq : Reach S.kind root q := hp.snoc hk hqs
            have hup : s2.used p = true := by rw [h1.used]; exact B.used p hp
            have huq : s2.used q = true := by rw [h1.used]; exact B.used q hrq
            refine Ok.bindEq (isMarked_ok hup) (Ok.bindEq (isMarked_ok huq) ?_)
            have hmp : s2.mark p = b := by rw [h1.mark]; simp [h4]
            by_cases hqv : q ∈ vs ++ ws
            · have hmq : s2.mark q = b := by rw [h1.mark]; simp only [hqv, if_true]
              rw [if_neg (by simp [hmp, hmq])]
              refine Ok.pure ⟨fun r hr => hsub r (by simp [hr]), ws, h1, h2, h3, h4, h5, h6, ?_⟩
              intro r hr
              rcases h7 r hr with h | h
              · rcases List.mem_cons.1 h with rfl | h
                · exact Or.inr hqv
                · exact Or.inl h
              · exact Or.inr h
            · have hmq : s2.mark q = !b := by rw [h1.mark]; simp only [hqv, if_false, hM q hrq]
              rw [if_pos (by simp [hmp, hmq])]
              have hl := B.lvl p i ss q hp hk hqs
              have hle := B.le q hrq
              refine (ih q (vs ++ ws) t2 s2 hrq hqv h3 h1 h2 (by omega)).mono ?_
              rintro t3 s3 ⟨us, k1, k2, k3, k4, k5, k6⟩
              refine ⟨fun r hr => hsub r (by simp [hr]), ws ++ us, ?_⟩
              rw [← List.append_assoc]
              refine ⟨k1, k2, k3, by simp [h4], ?_, ?_, ?_⟩
              · intro w hw
                rcases List.mem_append.1 hw with h | h
                · exact h5 w h
                · exact k5 w h
              · intro w hw hne r hr
                rcases List.mem_append.1 hw with h | h
                · exact List.mem_append.2 (Or.inl (h6 w h hne r hr))
                · exact k6 w h r hr
              · intro r hr
                rcases h7 r hr with h | h
                · rcases List.mem_cons.1 h with rfl | h
                  · exact Or.inr (List.mem_append.2 (Or.inr k4))
                  · exact Or.inl h
                · exact Or.inr (List.mem_append.2 (Or.inl h))
          · intro w hw hne
            simp at hw
            exact absurd hw hne
          · rintro t2 s2 ⟨_, ws, h1, h2, h3, h4, h5, h6, h7⟩
            refine ⟨ws, h1, h2, h3, h4, h5, ?_⟩
            intro w hw q hq
            by_cases hwp : w = p
            · subst hwp
              rw [sonsOf_inner hk] at hq
              rcases h7 q hq with h | h
              · cases h
              · exact h
            · exact h6 w hw hwp q hq

theorem traversePostImpl_okE {E : Err → Prop} {τ : Type} {op : Ptr → τ → M τ}
    (I : List Ptr → τ → (Ptr → Option Rat) → Prop) (B : Below c S root)
    (hM : ∀ q, Reach S.kind root q → M0 q = !b)
    (hop : ∀ vs ds p t s, TSt S M0 b vs s → I ds t s.data → Reach S.kind root p → p ∉ ds →
      (∀ q ∈ S.sonsOf p, q ∈ ds) →
      OkE E (op p t) s (fun t' s' => TSt S M0 b vs s' ∧ I (ds ++ [p]) t' s'.data)) :
    ∀ (f : Nat) (p : Ptr) (vs ds : List Ptr) (t : τ) (s : Mgr), Reach S.kind root p → p ∉ vs →
      vs.Nodup → ds.Nodup → (∀ d ∈ ds, d ∈ vs) →
      (∀ v ∈ vs, S.levelOf c p ≤ S.levelOf c v → v ∈ ds) →
      TSt S M0 b vs s → I ds t s.data → c.n - S.levelOf c p < f →
      OkE E (traversePostImpl op f p t) s (fun t' s' => ∃ ws es, TSt S M0 b (vs ++ ws) s' ∧
        I (ds ++ es) t' s'.data ∧ (vs ++ ws).Nodup ∧ (ds ++ es).Nodup ∧ p ∈ ws ∧
        (∀ w, w ∈ ws ↔ w ∈ es) ∧ (∀ w ∈ ws, Reach S.kind root w) ∧
        (∀ w ∈ ws, ∀ q ∈ S.sonsOf w, q ∈ vs ++ ws)) := by
  intro f
  induction f with
  | zero => intro p vs ds t s _ _ _ _ _ _ _ _ hf; omega
  | succ f ih =>
      intro p vs ds t s hp hv hnd hdnd hdv hdone hT hI hf
      have hu : s.used p = true := by rw [hT.used]; exact B.used p hp
      simp only [traversePostImpl]
      refine OkE.bindEq (toggleMarked_ok hu) ?_
      have hT1 := hT.toggle hv (hM p hp)
      have hpd : p ∉ ds := fun h => hv (hdv p h)
      generalize hs1 : ({ s with mark := upd s.mark p (!s.mark p) } : Mgr) = s1 at hT1 ⊢
      have hI1 : I ds t s1.data := by rw [← hs1]; exact hI
      have hu1 : s1.used p = true := by rw [hT1.used]; exact B.used p hp
      have hnd1 : (vs ++ [p]).Nodup := by
        rw [List.nodup_append]
        refine ⟨hnd, by simp, ?_⟩
        intro a ha b hb
        simp at hb
        subst hb
        exact fun e => hv (e ▸ ha)
      -- the sons
      have hsons : OkE E ((do
          match ← getKind p with
          | .leaf _ => pure t
          | .inner _ sons =>
              foldL (fun q t => do
                let mp ← isMarked p
                let mq ← isMarked q
                if mp != mq then traversePostImpl op f q t else pure t) sons t) : M τ) s1
          (fun t' s' => ∃ ws es, TSt S M0 b (vs ++ ws) s' ∧
            I (ds ++ es) t' s'.data ∧ (vs ++ ws).Nodup ∧ (ds ++ es).Nodup ∧ p ∈ ws ∧
            (∀ w, w ∈ ws ↔ w = p ∨ w ∈ es) ∧ p ∉ es ∧ (∀ w ∈ ws, Reach S.kind root w) ∧
            (∀ w ∈ ws, ∀ q ∈ S.sonsOf w, q ∈ vs ++ ws) ∧ (∀ q ∈ S.sonsOf p, q ∈ ds ++ es)) := by
        refine OkE.bindEq (getKind_ok hu1) ?_
        rw [hT1.kind]
        cases hk : S.kind p with
        | leaf v =>
            refine OkE.pure ⟨[p], [], hT1, by simpa using hI1, hnd1, by simpa using hdnd, by simp,
              by simp, by simp, by simp [hp], ?_, ?_⟩
            · intro w hw q hq
              simp at hw
              subst hw
              simp [sonsOf_leaf hk] at hq
            · simp [sonsOf_leaf hk]
        | inner i ss =>
            refine (foldL_ruleE (I := fun rest t s => (∀ q ∈ rest, q ∈ ss) ∧
              ∃ ws es, TSt S M0 b (vs ++ ws) s ∧ I (ds ++ es) t s.data ∧ (vs ++ ws).Nodup ∧
                (ds ++ es).Nodup ∧ p ∈ ws ∧ (∀ w, w ∈ ws ↔ w = p ∨ w ∈ es) ∧ p ∉ es ∧
                (∀ w ∈ ws, Reach S.kind root w) ∧
                (∀ w ∈ ws, w ≠ p → ∀ q ∈ S.sonsOf w, q ∈ vs ++ ws) ∧
                (∀ q ∈ ss, q ∈ rest ∨ q ∈ vs ++ ws)) ?_ ss t s1
              ⟨fun _ h => h, [p], [], hT1, by simpa using hI1, hnd1, by simpa using hdnd, by simp,
                by simp, by simp, by simp [hp], ?_, fun q hq => Or.inl hq⟩).mono ?_
            · rintro q rest t2 s2 ⟨hsub, ws, es, h1, h2, h3, h3', h4, h8, h9, h5, h6, h7⟩
              have hqs : q ∈ ss := hsub q (by simp)
              have hrq : Reach S.kind root q := hp.snoc hk hqs
              have hup : s2.used p = true := by rw [h1.used]; exact B.used p hp
              have huq : s2.used q = true := by rw [h1.used]; exact B.used q hrq
              refine OkE.bindEq (isMarked_ok hup) (OkE.bindEq (isMarked_ok huq) ?_)
              have hmp : s2.mark p = b := by rw [h1.mark]; simp [h4]
              by_cases hqv : q ∈ vs ++ ws
              · have hmq : s2.mark q = b := by rw [h1.mark]; simp only [hqv, if_true]
                rw [if_neg (by simp [hmp, hmq])]
                refine OkE.pure ⟨fun r hr => hsub r (by simp [hr]), ws, es, h1, h2, h3, h3', h4, h8,
                  h9, h5, h6, ?_⟩
                intro r hr
                rcases h7 r hr with h | h
                · rcases List.mem_cons.1 h with rfl | h
                  · exact Or.inr hqv
                  · exact Or.inl h
                · exact Or.inr h
              · have hmq : s2.mark q = !b := by rw [h1.mark]; simp only [hqv, if_false, hM q hrq]
                rw [if_pos (by simp [hmp, hmq])]
                have hl := B.lvl p i ss q hp hk hqs
                have hle := B.le q hrq
                refine (ih q (vs ++ ws) (ds ++ es) t2 s2 hrq hqv h3 h3' ?_ ?_ h1 h2
                  (by omega)).mono ?_
                · intro d hd
                  rcases List.mem_append.1 hd with h | h
                  · exact List.mem_append.2 (Or.inl (hdv d h))
                  · exact List.mem_append.2 (Or.inr ((h8 d).2 (Or.inr h)))
                · intro v hv' hlv
                  rcases List.mem_append.1 hv' with h | h
                  · exact List.mem_append.2 (Or.inl (hdone v h (by omega)))
                  · rcases (h8 v).1 h with rfl | h
                    · omega
                    · exact List.mem_append.2 (Or.inr h)
                · rintro t3 s3 ⟨us, fs, k1, k2, k3, k3', k4, k8, k5, k6⟩
                  have hpu : p ∉ us := by
                    intro h
                    have := (List.nodup_append.1 k3).2.2 p (by simp [h4]) p h
                    exact this rfl
                  refine ⟨fun r hr => hsub r (by simp [hr]), ws ++ us, es ++ fs, ?_⟩
                  rw [← List.append_assoc, ← List.append_assoc]
                  refine ⟨k1, k2, k3, k3', by simp [h4], ?_, ?_, ?_, ?_, ?_⟩
                  · intro w
                    simp only [List.mem_append, h8 w, k8 w, or_assoc]
                  · simp only [List.mem_append, not_or]
                    exact ⟨h9, fun h => hpu ((k8 p).2 h)⟩
                  · intro w hw
                    rcases List.mem_append.1 hw with h | h
                    · exact h5 w h
                    · exact k5 w h
                  · intro w hw hne r hr
                    rcases List.mem_append.1 hw with h | h
                    · exact List.mem_append.2 (Or.inl (h6 w h hne r hr))
                    · exact k6 w h r hr
                  · intro r hr
                    rcases h7 r hr with h | h
                    · rcases List.mem_cons.1 h with rfl | h
                      · exact Or.inr (List.mem_append.2 (Or.inr k4))
                      · exact Or.inl h
                    · exact Or.inr (List.mem_append.2 (Or.inl h))
            · intro w hw hne
              simp at hw
              exact absurd hw hne
            · rintro t2 s2 ⟨_, ws, es, h1, h2, h3, h3', h4, h8, h9, h5, h6, h7⟩
              refine ⟨ws, es, h1, h2, h3, h3', h4, h8, h9, h5, ?_, ?_⟩
              · intro w hw q hq
                by_cases hwp : w = p
                · subst hwp
                  rw [sonsOf_inner hk] at hq
                  rcases h7 q hq with h | h
                  · cases h
                  · exact h
                · exact h6 w hw hwp q hq
              · intro q hq
                rw [sonsOf_inner hk] at hq
                have hl := B.lvl p i ss q hp hk hq
                rcases h7 q hq with h | h
                · cases h
                · rcases List.mem_append.1 h with h | h
                  · exact List.mem_append.2 (Or.inl (hdone q h (by omega)))
                  · rcases (h8 q).1 h with rfl | h
                    · omega
                    · exact List.mem_append.2 (Or.inr h)
      refine OkE.bind hsons ?_
      rintro t1 s2 ⟨ws, es, h1, h2, h3, h3', h4, h8, h9, h5, h6, h7⟩
      have hpde : p ∉ ds ++ es := by
        simp only [List.mem_append, not_or]
        exact ⟨hpd, h9⟩
      refine (hop (vs ++ ws) (ds ++ es) p t1 s2 h1 h2 hp hpde h7).mono ?_
      rintro t2 s3 ⟨k1, k2⟩
      refine ⟨ws, es ++ [p], k1, by rw [← List.append_assoc]; exact k2, h3, ?_, h4, ?_, h5, h6⟩
      · rw [← List.append_assoc, List.nodup_append]
        refine ⟨h3', by simp, ?_⟩
        intro a ha b hb
        simp at hb
        subst hb
        exact fun e => hpde (e ▸ ha)
      · intro w
        rw [h8 w]
        simp only [List.mem_append, List.mem_singleton]
        tauto

/-- A closed set of nodes below the root that contains the root is everything below it. -/
theorem closed_all {ws : List Ptr} (h1 : root ∈ ws) (h2 : ∀ w ∈ ws, ∀ q ∈ S.sonsOf w, q ∈ ws) :
    ∀ q, Reach S.kind root q → q ∈ ws := by
  intro q hr
  induction hr with
  | refl => exact h1
  | step hk hq _ ih => exact ih (h2 _ h1 _ (by rw [sonsOf_inner hk]; exact hq))

/-- The two passes restore the marks. -/
theorem restore {ws us : List Ptr} {s1 s2 : Mgr} (hc : ∀ q, Reach S.kind root q → S.mark q = false)
    (h1 : TSt S S.mark true ws s1) (h2 : TSt s1 s1.mark false us s2)
    (hws : ∀ q, q ∈ ws ↔ Reach S.kind root q) (hus : ∀ q, q ∈ us ↔ Reach S.kind root q)
    (hd : s2.data = s1.data) : s2 = { S with data := s1.data } := by
  have e : s2.mark = S.mark := by
    rw [h2.mark, h1.mark]
    funext q
    by_cases hq : Reach S.kind root q
    · simp [(hus q).2 hq, hc q hq]
    · have a : q ∉ ws := fun h => hq ((hws q).1 h)
      have b : q ∉ us := fun h => hq ((hus q).1 h)
      simp [a, b]
  have h3 : s2 = { s1 with mark := s2.mark, data := s2.data } := by
    conv => lhs; rw [h2]
    rw [h2.mark]
  rw [h3, e, hd]
  conv => lhs; rw [h1]

theorem traversePre_ok {τ : Type} {op : Ptr → τ → M τ} {t : τ}
    (I : List Ptr → τ → (Ptr → Option Rat) → Prop) (B : Below c S root)
    (hc : ∀ q, Reach S.kind root q → S.mark q = false) (hI : I [] t S.data)
    (hop : ∀ vs p t s, TSt S S.mark true (vs ++ [p]) s → I vs t s.data → Reach S.kind root p →
      p ∉ vs → Ok (op p t) s (fun t' s' => TSt S S.mark true (vs ++ [p]) s' ∧
        I (vs ++ [p]) t' s'.data)) :
    Ok (traversePre c op root t) S (fun t' s' => ∃ vs, vs.Nodup ∧
      (∀ q, q ∈ vs ↔ Reach S.kind root q) ∧ s' = { S with data := s'.data } ∧
      I vs t' s'.data) := by
  unfold traversePre
  refine Ok.bind (traversePreImpl_ok (b := true) (M0 := S.mark) I B (by simpa using hc) hop
    (c.n + 1) root [] t S .refl (by simp) (by simp) (by simp [TSt]) hI (by omega)) ?_
  rintro t1 s1 ⟨ws, h1, h2, h3, h4, h5, h6⟩
  simp only [List.nil_append] at h1 h2 h3 h6
  have hws : ∀ q, q ∈ ws ↔ Reach S.kind root q := fun q => ⟨h5 q, closed_all h4 h6 q⟩
  have B' : Below c s1 root := by
    rw [h1]
    exact ⟨B.used, B.lvl, B.le⟩
  refine Ok.bind (traversePreImpl_ok (op := fun _ (u : Unit) => pure u) (b := false)
    (M0 := s1.mark) (fun _ _ d => d = s1.data) B' ?_ ?_
    (c.n + 1) root [] () s1 .refl (by simp) (by simp) (by simp [TSt]) rfl (by omega)) ?_
  · intro q hq
    rw [h1.kind] at hq
    rw [h1.mark]
    simp [(hws q).2 hq]
  · intro vs p t s hT hd _ _
    exact Ok.pure ⟨hT, hd⟩
  · rintro _ s2 ⟨us, k1, k2, k3, k4, k5, k6⟩
    simp only [List.nil_append] at k1 k2 k3 k6
    rw [h1.kind] at k5
    have hus : ∀ q, q ∈ us ↔ Reach S.kind root q := by
      refine fun q => ⟨k5 q, fun h => closed_all k4 k6 q ?_⟩
      rw [h1.kind]; exact h
    have e := restore hc h1 k1 hws hus k2
    refine Ok.pure ⟨ws, h3, hws, ?_, ?_⟩
    · rw [k2]; exact e
    · rw [k2]; exact h2

theorem traversePost_okE {E : Err → Prop} {τ : Type} {op : Ptr → τ → M τ} {t : τ}
    (I : List Ptr → τ → (Ptr → Option Rat) → Prop) (B : Below c S root)
    (hc : ∀ q, Reach S.kind root q → S.mark q = false) (hI : I [] t S.data)
    (hop : ∀ vs ds p t s, TSt S S.mark true vs s → I ds t s.data → Reach S.kind root p → p ∉ ds →
      (∀ q ∈ S.sonsOf p, q ∈ ds) →
      OkE E (op p t) s (fun t' s' => TSt S S.mark true vs s' ∧ I (ds ++ [p]) t' s'.data)) :
    OkE E (traversePost c op root t) S (fun t' s' => ∃ vs, vs.Nodup ∧
      (∀ q, q ∈ vs ↔ Reach S.kind root q) ∧ s' = { S with data := s'.data } ∧
      I vs t' s'.data) := by
  unfold traversePost
  refine OkE.bind (traversePostImpl_okE (E := E) (b := true) (M0 := S.mark) I B (by simpa using hc) hop
    (c.n + 1) root [] [] t S .refl (by simp) (by simp) (by simp) (by simp) (by simp)
    (by simp [TSt]) hI (by omega)) ?_
  rintro t1 s1 ⟨ws, es, h1, h2, h3, h3', h4, h8, h5, h6⟩
  simp only [List.nil_append] at h1 h2 h3 h3' h6
  have hws : ∀ q, q ∈ ws ↔ Reach S.kind root q := fun q => ⟨h5 q, closed_all h4 h6 q⟩
  have B' : Below c s1 root := by
    rw [h1]
    exact ⟨B.used, B.lvl, B.le⟩
  refine OkE.bind (traversePostImpl_okE (E := E) (op := fun _ (u : Unit) => pure u) (b := false)
    (M0 := s1.mark) (fun _ _ d => d = s1.data) B' ?_ ?_
    (c.n + 1) root [] [] () s1 .refl (by simp) (by simp) (by simp) (by simp) (by simp)
    (by simp [TSt]) rfl (by omega)) ?_
  · intro q hq
    rw [h1.kind] at hq
    rw [h1.mark]
    simp [(hws q).2 hq]
  · intro vs ds p t s hT hd _ _ _
    exact OkE.pure ⟨hT, hd⟩
  · rintro _ s2 ⟨us, _, k1, k2, k3, _, k4, _, k5, k6⟩
    simp only [List.nil_append] at k1 k2 k3 k6
    rw [h1.kind] at k5
    have hus : ∀ q, q ∈ us ↔ Reach S.kind root q := by
      refine fun q => ⟨k5 q, fun h => closed_all k4 k6 q ?_⟩
      rw [h1.kind]; exact h
    have e := restore hc h1 k1 hws hus k2
    refine OkE.pure ⟨es, h3', fun q => (h8 q).symm.trans (hws q), ?_, ?_⟩
    · rw [k2]; exact e
    · rw [k2]; exact h2

theorem traversePost_ok {τ : Type} {op : Ptr → τ → M τ} {t : τ}
    (I : List Ptr → τ → (Ptr → Option Rat) → Prop) (B : Below c S root)
    (hc : ∀ q, Reach S.kind root q → S.mark q = false) (hI : I [] t S.data)
    (hop : ∀ vs ds p t s, TSt S S.mark true vs s → I ds t s.data → Reach S.kind root p → p ∉ ds →
      (∀ q ∈ S.sonsOf p, q ∈ ds) →
      Ok (op p t) s (fun t' s' => TSt S S.mark true vs s' ∧ I (ds ++ [p]) t' s'.data)) :
    Ok (traversePost c op root t) S (fun t' s' => ∃ vs, vs.Nodup ∧
      (∀ q, q ∈ vs ↔ Reach S.kind root q) ∧ s' = { S with data := s'.data } ∧
      I vs t' s'.data) :=
  OkE.ok (traversePost_okE I B hc hI fun vs ds p t s h1 h2 h3 h4 h5 => OkE.of_ok (hop vs ds p t s h1 h2 h3 h4 h5))

end

end Teddy
