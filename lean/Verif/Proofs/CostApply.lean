import Verif.CostApply
import Verif.Proofs.CostTransform
import Verif.Proofs.Apply

/-! Calls of `apply_impl`: the counter does not change what is computed; at most one call for each path. -/

namespace Teddy

open SM Spec

/-! ### The counter changes nothing -/

theorem mapAccL_fst {σ α β : Type} {f : α → SM σ β} {g : α → Nat → SM σ (β × Nat)}
    (h : ∀ a t, Prod.fst <$> g a t = f a) :
    ∀ (l : List α) (t : Nat), Prod.fst <$> mapAccL g l t = mapL f l
  | [], t => by simp [mapAccL, mapL]
  | a :: l, t => by
      simp only [mapAccL, mapL, map_bind]
      rw [← h a t, bind_map_left]
      refine bind_congr fun r => ?_
      rw [← mapAccL_fst h l r.2, bind_map_left]
      simp only [map_pure]

theorem applySteps_fst (c : Cfg) (op : BinOp) : ∀ (f : Nat) (lhs rhs : Ptr) (t : Nat),
    Prod.fst <$> applySteps c op f lhs rhs t = applyImpl c op f lhs rhs
  | 0, _, _, _ => rfl
  | f + 1, lhs, rhs, t => by
      simp only [applySteps, applyImpl, map_bind]
      refine bind_congr fun r => ?_
      cases r with
      | some p => simp
      | none =>
          simp only [map_bind]
          refine bind_congr fun lv => bind_congr fun rv => bind_congr fun v => ?_
          split
          · simp
          · simp only [map_bind]
            refine bind_congr fun ll => bind_congr fun rl => bind_congr fun i => ?_
            rw [← mapAccL_fst (g := fun k t => do
              let a ← sonAtTop lhs ll (min ll rl) k
              let b ← sonAtTop rhs rl (min ll rl) k
              applySteps c op f a b t) (fun k t => ?_) (List.range (c.dom i)) (t + 1), bind_map_left]
            · simp
            · simp only [map_bind]
              exact bind_congr fun a => bind_congr fun b => applySteps_fst c op f a b t

theorem applyCost_fst (c : Cfg) (op : BinOp) (lhs rhs : Ptr) :
    Prod.fst <$> applyCost c op lhs rhs = apply c op lhs rhs := by
  unfold applyCost apply
  rw [← applySteps_fst c (opType c op) (c.n + 1) lhs rhs 0]
  simp

theorem execApplySteps_fst (c : Cfg) (k : Call) : Prod.fst <$> execApplySteps c k = exec c k := by
  cases k
  case apply op a b =>
    simp only [execApplySteps, exec]
    rw [map_bind]
    refine bind_congr fun p => ?_
    rw [map_bind]
    exact bind_congr fun q => making_fst (applyCost_fst c op p q)
  all_goals
    simp only [execApplySteps, map_bind, map_pure]
    exact bind_pure _

/-! ### The number of calls -/

/-- The number of nodes of a full tree of `f` levels in which every inner node has `D` sons. -/
def treeSize (D : Nat) : Nat → Nat
  | 0 => 0
  | f + 1 => 1 + D * treeSize D f

theorem bind_split {σ α β : Type} {m : SM σ α} {f : α → SM σ β} {s s' : σ} {b : β}
    (e : (m >>= f) s = .ok (b, s')) : ∃ a s1, m s = .ok (a, s1) ∧ f a s1 = .ok (b, s') := by
  rw [bind_run] at e
  cases h : m s with
  | error x => rw [h] at e; cases e
  | ok r => rw [h] at e; exact ⟨r.1, r.2, rfl, e⟩

/-- A loop whose body adds at most `B`. -/
theorem mapAccL_le {σ α β : Type} {g : α → Nat → SM σ (β × Nat)} {I : σ → Prop} {B : Nat} :
    ∀ (l : List α), (∀ a ∈ l, ∀ s, I s → ∀ t b n s', g a t s = .ok ((b, n), s') → I s' ∧ n ≤ t + B) →
      ∀ s, I s → ∀ t bs n s', mapAccL g l t s = .ok ((bs, n), s') → n ≤ t + l.length * B
  | [], _, s, _, t, bs, n, s', e => by
      simp only [mapAccL] at e
      cases e
      omega
  | a :: l, h, s, hs, t, bs, n, s', e => by
      simp only [mapAccL] at e
      obtain ⟨⟨b, n1⟩, s1, e1, e⟩ := bind_split e
      obtain ⟨⟨bs', n2⟩, s2, e2, e⟩ := bind_split e
      cases e
      obtain ⟨h1, h2⟩ := h a (by simp) s hs t b n1 s1 e1
      have := mapAccL_le l (fun a ha => h a (by simp [ha])) s1 h1 _ _ _ _ e2
      have : (a :: l).length * B = l.length * B + B := by simp [Nat.succ_mul]
      omega

section
variable {E : Env} {ext : Ptr → Nat} {D : Nat}

theorem applySteps_le {op : BinOp} (hΓ : E.Γ op.id = op) (hca : E.cache = true)
    (hD : ∀ i, i < E.c.n → E.c.dom i ≤ D) :
    ∀ (f : Nat) (s : Mgr) (lhs rhs : Ptr), Good E ext s → Prot ext [] s lhs → Prot ext [] s rhs →
      OpOK E.c op (LeafVal s.kind lhs) (LeafVal s.kind rhs) →
      E.c.n - min (s.levelOf E.c lhs) (s.levelOf E.c rhs) < f →
      ∀ t r n s', applySteps E.c op f lhs rhs t s = .ok ((r, n), s') → n ≤ t + treeSize D f := by
  intro f
  induction f with
  | zero => intro s lhs rhs _ _ _ _ hf; omega
  | succ f ih =>
      intro s lhs rhs g hpl hpr hop hf t r n s' e
      have hul := hpl.used g.inv
      have hur := hpr.used g.inv
      simp only [applySteps] at e
      cases hfind : s.cache.find E.c.chash op.id (orderOperands E.c op.comm lhs rhs).1
          (orderOperands E.c op.comm lhs rhs).2 with
      | some q =>
          obtain ⟨i, he⟩ := Cache.find_some hfind
          rw [bind_ok (cacheFind_some hfind (g.cache hca i _ he).res)] at e
          cases e
          simp only [treeSize]; omega
      | none =>
          rw [bind_ok (cacheFind_none hfind)] at e
          dsimp only at e
          rw [bind_ok (valueOrND_ok hul)] at e
          rw [bind_ok (valueOrND_ok hur)] at e
          obtain ⟨v, hv, hnd, hdet⟩ := hop.total _ _ (topVal_leaf (s := s) (p := lhs))
            (topVal_leaf (s := s) (p := rhs))
          rw [bind_ok (liftE_ok hv s)] at e
          by_cases hvn : v = Nondetermined
          · rw [if_neg (by simpa using hvn)] at e
            rw [bind_ok (getLevel_ok hul)] at e
            rw [bind_ok (getLevel_ok hur)] at e
            have htop : min (s.levelOf E.c lhs) (s.levelOf E.c rhs) < E.c.n := by
              by_contra hc
              have h1 : ∀ m, getIndex E.c (min (s.levelOf E.c lhs) (s.levelOf E.c rhs)) s ≠ .ok m := by
                intro m h
                simp only [getIndex] at h
                simp only [if_neg hc] at h
                cases h
              obtain ⟨i, s1, e1, -⟩ := bind_split e
              exact h1 _ e1
            generalize htopdef : min (s.levelOf E.c lhs) (s.levelOf E.c rhs) = top at *
            rw [bind_ok (getIndex_ok htop)] at e
            have hi := g.inv.order.l2i_lt top htop
            have hli := g.inv.order.l2i2l top htop
            generalize hidef : s.lvl2idx top = i at *
            have hll : s.idx2lvl i ≤ s.levelOf E.c lhs := by omega
            have hlr : s.idx2lvl i ≤ s.levelOf E.c rhs := by omega
            obtain ⟨⟨sons, t1⟩, s1, e1, e⟩ := bind_split e
            obtain ⟨q, s2, -, e⟩ := bind_split e
            obtain ⟨-, s3, -, e⟩ := bind_split e
            cases e
            have key := mapAccL_le (I := fun s1 => Good E ext s1 ∧ Keeps ext [] s s1) (B := treeSize D f) _ ?_ s
              ⟨g, Keeps.refl s⟩ _ _ _ _ e1
            · rw [List.length_range] at key
              have := Nat.mul_le_mul_right (treeSize D f) (hD i hi)
              simp only [treeSize]
              omega
            · rintro k hk s1 ⟨g1, k1⟩ t b n s2 e
              have hkd : k < E.c.dom i := List.mem_range.1 hk
              have hpl1 := k1.prot _ hpl
              have hpr1 := k1.prot _ hpr
              have hl1 : s1.levelOf E.c lhs = s.levelOf E.c lhs := k1.levelOf hpl
              have hr1 : s1.levelOf E.c rhs = s.levelOf E.c rhs := k1.levelOf hpr
              have hi1 : s1.idx2lvl i = top := by rw [k1.i2l]; exact hli
              obtain ⟨ra, ea, la, -, -⟩ := cofNode_spec g1.inv g1.ord hi (hpl1.used g1.inv)
                (by rw [hl1, k1.i2l]; exact hll) hkd
              obtain ⟨rb, eb, lb, -, -⟩ := cofNode_spec g1.inv g1.ord hi (hpr1.used g1.inv)
                (by rw [hr1, k1.i2l]; exact hlr) hkd
              rw [hi1] at ra ea la rb eb lb
              rw [hl1] at ea
              rw [hr1] at eb
              rw [bind_ok ea] at e
              rw [bind_ok eb] at e
              have hpa := ra.prot hpl1
              have hpb := rb.prot hpr1
              have hop1 : OpOK E.c op (LeafVal s1.kind (s1.cofNode E.c lhs top k))
                  (LeafVal s1.kind (s1.cofNode E.c rhs top k)) := by
                have tr : ∀ {p q v}, Reach s1.kind p q → LeafVal s1.kind q v → LeafVal s1.kind p v :=
                  fun hr ⟨t, h1, h2⟩ => ⟨t, hr.trans h1, h2⟩
                exact hop.mono (fun a ha => (tr ra ha).keeps k1 hpl) (fun b hb => (tr rb hb).keeps k1 hpr)
              obtain ⟨x, s3, e3, st, -⟩ := applyImpl_spec hΓ hca f s1 _ _ g1 hpa hpb hop1 (by omega)
              have e4 := to_fst (applySteps_fst E.c op f _ _ t) e
              rw [e4] at e3
              cases e3
              exact ⟨⟨st.good, k1.trans st.keeps⟩, ih s1 _ _ g1 hpa hpb hop1 (by omega) _ _ _ _ e⟩
          · rw [if_pos (by simpa using hvn)] at e
            obtain ⟨q, s2, -, e⟩ := bind_split e
            obtain ⟨-, s3, -, e⟩ := bind_split e
            cases e
            simp only [treeSize]; omega

theorem applyCost_le {op : BinOp} {s s' : Mgr} {lhs rhs r : Ptr} {n : Nat}
    (hΓ : E.Γ (opType E.c op).id = opType E.c op) (hca : E.cache = true)
    (hD : ∀ i, i < E.c.n → E.c.dom i ≤ D) (g : Good E ext s) (hl : Prot ext [] s lhs) (hr : Prot ext [] s rhs)
    (hop : OpOK E.c (opType E.c op) (LeafVal s.kind lhs) (LeafVal s.kind rhs))
    (e : applyCost E.c op lhs rhs s = .ok ((r, n), s')) : n ≤ treeSize D (E.c.n + 1) := by
  unfold applyCost at e
  obtain ⟨⟨q, t⟩, s1, e1, e⟩ := bind_split e
  obtain ⟨-, s2, -, e⟩ := bind_split e
  obtain ⟨d, s3, -, e⟩ := bind_split e
  cases e
  have := applySteps_le hΓ hca hD _ s lhs rhs g hl hr hop (by omega) _ _ _ _ e1
  omega

end

end Teddy
