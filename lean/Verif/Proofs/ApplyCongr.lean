import Verif.Proofs.Mnf
import Verif.Proofs.Sim
import Verif.Proofs.OpsLemmas

/-!
# Two operations that agree on what `apply` asks for

If the right operand is a terminal, then `apply` never asks for the value of the operation with an unknown right operand.
-/

namespace Teddy

open SM Spec

section
variable {E : Env} {ext : Ptr → Nat} {s : Mgr}

/-- `mapL` with two functions that agree in the states on the way. -/
theorem mapL_congr {α : Type} {f f' : α → M Ptr} (l : List α) (s0 : Mgr)
    (hf : ∀ a ∈ l, ∀ s, Good E ext s → Keeps ext [] s0 s →
      Ok (f' a) s (fun r s' => Step E ext s r s') ∧ f a s = f' a s) :
    ∀ s, Good E ext s → Keeps ext [] s0 s → mapL f l s = mapL f' l s := by
  induction l with
  | nil => intro s _ _; rfl
  | cons a l ih =>
      intro s g k0
      obtain ⟨⟨r, s1, e, st⟩, h⟩ := hf a (by simp) s g k0
      simp only [mapL]
      rw [bind_ok (h.trans e), bind_ok e, bind_run, bind_run,
        ih (fun b hb => hf b (by simp [hb])) s1 st.good (k0.trans st.keeps)]

theorem LeafVal.of_reach {kind : Ptr → Kind} {p q : Ptr} {v : Int} (hr : Reach kind p q) (hv : LeafVal kind q v) :
    LeafVal kind p v := by
  obtain ⟨t, h1, h2⟩ := hv
  refine ⟨t, ?_, h2⟩
  clear h2
  induction hr with
  | refl => exact h1
  | step hk hq _ ih => exact .step hk hq (ih h1)

theorem applyImpl_congr {op op' : BinOp} (hid : op.id = op'.id) (hco : op.comm = op'.comm) (hΓ : E.Γ op'.id = op')
    (hca : E.cache = true) {v : Int} :
    ∀ (f : Nat) (s : Mgr) (lhs rhs : Ptr), Good E ext s → Prot ext [] s lhs → Prot ext [] s rhs →
      s.kind rhs = .leaf v → OpOK E.c op' (LeafVal s.kind lhs) (LeafVal s.kind rhs) →
      (∀ a, LeafVal s.kind lhs a ∨ a = Nondetermined → op.fn a v = op'.fn a v) →
      E.c.n - min (s.levelOf E.c lhs) (s.levelOf E.c rhs) < f →
      applyImpl E.c op f lhs rhs s = applyImpl E.c op' f lhs rhs s := by
  intro f
  induction f with
  | zero => intro s lhs rhs _ _ _ _ _ _ hf; omega
  | succ f ih =>
      intro s lhs rhs g hpl hpr hkr hop hfn hf
      have hul := hpl.used g.inv
      have hur := hpr.used g.inv
      simp only [applyImpl, hid, hco]
      cases hfind : s.cache.find E.c.chash op'.id (orderOperands E.c op'.comm lhs rhs).1
          (orderOperands E.c op'.comm lhs rhs).2 with
      | some r =>
          obtain ⟨i, he⟩ := Cache.find_some hfind
          have hur' : s.used r = true := (g.cache hca i _ he).res
          rw [bind_ok (cacheFind_some hfind hur'), bind_ok (cacheFind_some hfind hur')]
      | none =>
          have htv : s.topVal rhs = v := by simp [Mgr.topVal, hkr]
          have e1 := cacheFind_none hfind
          have e2 := valueOrND_ok hul
          have e3 := valueOrND_ok hur
          rw [bind_ok e1, bind_ok e1]
          dsimp only
          rw [bind_ok e2, bind_ok e2, bind_ok e3, bind_ok e3, htv, hfn _ (topVal_leaf (s := s) (p := lhs))]
          obtain ⟨u, hu, hnd, -⟩ := hop.total _ _ (topVal_leaf (s := s) (p := lhs)) (topVal_leaf (s := s) (p := rhs))
          rw [htv] at hu
          have e4 := liftE_ok hu s
          rw [bind_ok e4, bind_ok e4]
          by_cases hvn : u = Nondetermined
          · rw [if_neg (by simpa using hvn), if_neg (by simpa using hvn)]
            have e5 := getLevel_ok (c := E.c) hul
            have e6 := getLevel_ok (c := E.c) hur
            rw [bind_ok e5, bind_ok e5, bind_ok e6, bind_ok e6]
            have hlr : s.levelOf E.c rhs = E.c.n := by simp [Mgr.levelOf, hkr]
            have htop : min (s.levelOf E.c lhs) (s.levelOf E.c rhs) < E.c.n := by
              cases hk : s.kind lhs with
              | leaf a =>
                  exfalso
                  rcases hnd hvn with h1 | h1
                  · exact hop.ndA a ⟨lhs, .refl, hk⟩ (by simpa [Mgr.topVal, hk] using h1)
                  · exact hop.ndB v ⟨rhs, .refl, hkr⟩ (by rw [← htv]; exact h1)
              | inner i ss =>
                  have : s.levelOf E.c lhs < E.c.n := by
                    simp only [Mgr.levelOf, hk]
                    exact g.inv.order.i2l_lt i (g.inv.sons lhs i ss hul hk).1
                  omega
            generalize htopdef : min (s.levelOf E.c lhs) (s.levelOf E.c rhs) = top at *
            have e7 := getIndex_ok (c := E.c) (s := s) htop
            rw [bind_ok e7, bind_ok e7]
            have hi := g.inv.order.l2i_lt top htop
            have hli := g.inv.order.l2i2l top htop
            generalize hidef : s.lvl2idx top = i at *
            have hll : s.idx2lvl i ≤ s.levelOf E.c lhs := by omega
            have hlr' : s.idx2lvl i ≤ s.levelOf E.c rhs := by omega
            rw [bind_run, bind_run, mapL_congr (E := E) (ext := ext) (List.range (E.c.dom i)) s ?_ s g (Keeps.refl s)]
            intro k hk s1 g1 k1
            have hkd : k < E.c.dom i := List.mem_range.1 hk
            have hpl1 := k1.prot _ hpl
            have hpr1 := k1.prot _ hpr
            have hl1 : s1.levelOf E.c lhs = s.levelOf E.c lhs := k1.levelOf hpl
            have hr1 : s1.levelOf E.c rhs = s.levelOf E.c rhs := k1.levelOf hpr
            have hi1 : s1.idx2lvl i = top := by rw [k1.i2l]; exact hli
            obtain ⟨ra, ea, la, -, -⟩ := cofNode_spec g1.inv g1.ord hi (hpl1.used g1.inv)
              (by rw [hl1, k1.i2l]; exact hll) hkd
            obtain ⟨rb, eb, lb, -, -⟩ := cofNode_spec g1.inv g1.ord hi (hpr1.used g1.inv)
              (by rw [hr1, k1.i2l]; exact hlr') hkd
            rw [hi1] at ra ea la rb eb lb
            rw [hl1] at ea
            rw [hr1] at eb
            have hpa := ra.prot hpl1
            have hpb := rb.prot hpr1
            have hA : ∀ a, LeafVal s1.kind (s1.cofNode E.c lhs top k) a → LeafVal s.kind lhs a :=
              fun a ha => (LeafVal.of_reach ra ha).keeps k1 hpl
            have hop1 : OpOK E.c op' (LeafVal s1.kind (s1.cofNode E.c lhs top k))
                (LeafVal s1.kind (s1.cofNode E.c rhs top k)) :=
              hop.mono hA (fun b hb => (LeafVal.of_reach rb hb).keeps k1 hpr)
            have hkr1 : s1.kind (s1.cofNode E.c rhs top k) = .leaf v := by
              have : s1.cofNode E.c rhs top k = rhs := by
                unfold Mgr.cofNode
                rw [if_neg (by omega)]
              rw [this, k1.kind _ hpr, hkr]
            rw [bind_ok ea, bind_ok ea, bind_ok eb, bind_ok eb]
            refine ⟨?_, ih s1 _ _ g1 hpa hpb hkr1 hop1 (fun a ha => hfn a (ha.imp_left (hA a))) (by omega)⟩
            refine Ok.bindEq ea (Ok.bindEq eb ?_)
            exact (applyImpl_spec hΓ hca f s1 _ _ g1 hpa hpb hop1 (by omega)).mono fun _ _ h => h.1
          · rw [if_pos (by simpa using hvn), if_pos (by simpa using hvn)]

end

variable {P : Setup} {w : World} {σ : SState}

/-- Two operations with the same identifier that agree if the right operand is `v`. -/
theorem exec_apply_congr (R : Rel P σ w) (hcanon : σ.canon = true) (hcache : σ.cacheOK = true) {op op' : BinOp}
    (hid : op.id = op'.id) (hco : op.comm = op'.comm) (hne : op.id ≠ Op.MAX.id) (hΓ : P.Γ op'.id = op') {a b : Nat}
    {f g : Asg → Int} {v : Int} (ha : σ.Has a f) (hb : σ.Has b g) (hg : ∀ x, InDomain P.c.n P.c.dom x → g x = v)
    (hop : OpOK P.c op' (Range P.c f) (Range P.c g))
    (hfn : ∀ u, Range P.c f u ∨ u = Nondetermined → op.fn u v = op'.fn u v) :
    exec P.c (.apply op a b) w = exec P.c (.apply op' a b) w := by
  have G := R.good
  obtain ⟨p, hp, hdp⟩ := R.has a f ha
  obtain ⟨q, hq, hdq⟩ := R.has b _ hb
  have hpl : Prot (extW w) [] w.mgr p := handle_prot (extL_pos hp)
  have hpr : Prot (extW w) [] w.mgr q := handle_prot (extL_pos hq)
  have ho : ∀ o : BinOp, o.id ≠ Op.MAX.id → opType P.c o = o := by
    intro o h
    unfold opType
    cases P.c.fixedDom with
    | none => rfl
    | some m => simp [h]
  have hA := fun u => (leafVal_iff G (hpl.used G.inv) hdp (v := u)).1
  have hB := fun u => (leafVal_iff G (hpr.used G.inv) hdq (v := u)).1
  have e : applyImpl P.c op (P.c.n + 1) p q w.mgr = applyImpl P.c op' (P.c.n + 1) p q w.mgr :=
    applyImpl_congr (E := envOf P σ) hid hco hΓ hcache (P.c.n + 1) w.mgr p q G hpl hpr
    (const_leaf G hcanon (hpr.used G.inv) fun x hx => by rw [← hg x hx]; exact hdq x hx) (hop.mono hA hB) (fun u hu => hfn u (hu.imp_left (hA u)))
    (Nat.lt_succ_of_le (Nat.sub_le _ _))
  have e' : apply P.c op p q w.mgr = apply P.c op' p q w.mgr := by
    unfold apply
    rw [ho op hne, ho op' (by rw [← hid]; exact hne), bind_run, bind_run, e]
  simp only [exec]
  rw [bind_ok (rootOf_ok hp), bind_ok (rootOf_ok hp), bind_ok (rootOf_ok hq), bind_ok (rootOf_ok hq)]
  unfold making
  rw [bind_run, bind_run]
  have e2 : onMgr (apply P.c op p q) w = onMgr (apply P.c op' p q) w := by
    unfold onMgr
    rw [e']
  rw [e2]

end Teddy
