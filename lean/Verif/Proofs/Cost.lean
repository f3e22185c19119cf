import Verif.Cost
import Verif.Proofs.SatOne
import Verif.Proofs.Mnf
import Verif.Proofs.Observe
import Verif.Proofs.OkE

/-! Steps of the queries: the counters do not change what is computed; upper bounds for functions of two values. -/

namespace Teddy

open SM Spec

/-! ### The counters change nothing -/

theorem foldL_fst {σ α τ : Type} {f : α → τ → SM σ τ} {g : α → τ × Nat → SM σ (τ × Nat)}
    (h : ∀ a t, Prod.fst <$> g a t = f a t.1) : ∀ (l : List α) (t : τ × Nat), Prod.fst <$> foldL g l t = foldL f l t.1
  | [], t => by simp [foldL]
  | a :: l, t => by
      simp only [foldL, map_bind]
      rw [← h a t, bind_map_left]
      refine bind_congr fun t1 => foldL_fst h l t1

theorem evalCost_fst (x : Asg) : ∀ (f : Nat) (p : Ptr), Prod.fst <$> evalCost f p x = evalNode f p x
  | 0, p => rfl
  | f + 1, p => by
      simp only [evalCost, evalNode, map_bind]
      refine bind_congr fun k => ?_
      cases k with
      | leaf v => simp
      | inner i ss =>
          simp only [map_bind]
          refine bind_congr fun q => ?_
          rw [← evalCost_fst x f q]
          simp only [map_pure, bind_pure_comp]

theorem traversePost_fst {c : Cfg} {τ : Type} {op : Ptr → τ → M τ} {g : Ptr → τ × Nat → M (τ × Nat)}
    (h : ∀ p t, Prod.fst <$> g p t = op p t.1) (p : Ptr) (t : τ × Nat) :
    Prod.fst <$> traversePost c g p t = traversePost c op p t.1 := by
  have impl : ∀ (f : Nat) (p : Ptr) (t : τ × Nat), Prod.fst <$> traversePostImpl g f p t = traversePostImpl op f p t.1 := by
    intro f
    induction f with
    | zero => intro p t; rfl
    | succ f ih =>
        intro p t
        simp only [traversePostImpl, map_bind, bind_assoc, h]
        refine bind_congr fun _ => bind_congr fun k => ?_
        cases k with
        | leaf v => simp
        | inner i ss =>
            dsimp only
            rw [← foldL_fst (g := fun q t => do
              let mp ← isMarked p
              let mq ← isMarked q
              if mp != mq then traversePostImpl g f q t else pure t) ?_ ss t, bind_map_left]
            intro q t
            simp only [map_bind]
            refine bind_congr fun _ => bind_congr fun _ => ?_
            split
            · exact ih q t
            · simp
  unfold traversePost
  rw [← impl, bind_map_left]
  simp only [map_bind, map_pure]

theorem satisfyCountCost_fst (c : Cfg) (v : Int) (p : Ptr) : Prod.fst <$> satisfyCountCost c v p = satisfyCount c v p := by
  unfold satisfyCountCost satisfyCount
  simp only [map_bind, map_pure]
  refine bind_congr fun _ => ?_
  rw [← traversePost_fst (op := satCountVisit c v) (g := fun p (t : (Ptr → Int) × Nat) => do
    let m ← satCountVisit c v p t.1
    pure (m, t.2 + 1)) ?_ p ((fun _ => 0), 0), bind_map_left]
  · refine bind_congr fun _ => bind_congr fun _ => bind_congr fun _ => ?_
    simp
  · intro p t
    simp

theorem firstSonCost_fst {try_ : Ptr → Asg → M (Bool × Asg)} {tryC : Ptr → Asg → Nat → M ((Bool × Asg) × Nat)}
    (h : ∀ p x n, Prod.fst <$> tryC p x n = try_ p x) (i : Nat) : ∀ (qs : List Ptr) (k : Nat) (x : Asg) (n : Nat),
      Prod.fst <$> firstSonCost tryC i k qs x n = firstSon try_ i k qs x
  | [], k, x, n => by simp [firstSonCost, firstSon]
  | q :: qs, k, x, n => by
      simp only [firstSonCost, firstSon, map_bind]
      rw [← h q (upd x i k) n, bind_map_left]
      refine bind_congr fun r => ?_
      obtain ⟨⟨b, y⟩, m⟩ := r
      cases b with
      | true => simp
      | false =>
          simp only [Bool.false_eq_true, if_false]
          exact firstSonCost_fst h i qs (k + 1) y m

theorem satOneCost_fst (v : Int) : ∀ (f : Nat) (p : Ptr) (x : Asg) (n : Nat),
    Prod.fst <$> satOneCost v f p x n = satOneImpl v f p x
  | 0, _, _, _ => rfl
  | f + 1, p, x, n => by
      simp only [satOneCost, satOneImpl, map_bind]
      refine bind_congr fun k => ?_
      cases k with
      | leaf v => simp
      | inner i ss => exact firstSonCost_fst (satOneCost_fst v f) i ss 0 x (n + 1)

theorem satisfyOneCost_fst (c : Cfg) (v : Int) (p : Ptr) : Prod.fst <$> satisfyOneCost c v p = satisfyOne c v p := by
  unfold satisfyOneCost satisfyOne
  simp only [map_bind, map_pure]
  refine bind_congr fun _ => ?_
  rw [← satOneCost_fst v (c.n + 1) p (fun _ => 0) 0, bind_map_left]

theorem satAllCost_fst (c : Cfg) (v : Int) : ∀ (f : Nat) (p : Ptr) (l : Nat) (x : Asg) (out : List (List Nat)) (n : Nat),
    Prod.fst <$> satAllCost c v f p l x out n = satAllImpl c v f p l x out
  | 0, _, _, _, _, _ => rfl
  | f + 1, p, l, x, out, n => by
      simp only [satAllCost, satAllImpl, map_bind]
      refine bind_congr fun k => ?_
      cases k with
      | leaf u =>
          dsimp only
          split
          · simp
          · split
            · simp
            · simp only [map_bind]
              refine bind_congr fun i => ?_
              exact foldL_fst (fun k t => satAllCost_fst c v f p (l + 1) (upd t.1.1 i k) t.1.2 t.2) _ ((x, out), n + 1)
      | inner j ss =>
          dsimp only
          split
          · rfl
          simp only [map_bind]
          refine bind_congr fun s => ?_
          split
          · simp only [map_bind]
            refine bind_congr fun i => ?_
            exact foldL_fst (fun k t => satAllCost_fst c v f p (l + 1) (upd t.1.1 i k) t.1.2 t.2) _ ((x, out), n + 1)
          · exact foldL_fst (fun e t => satAllCost_fst c v f e.1 (l + 1) (upd t.1.1 j e.2) t.1.2 t.2) _ ((x, out), n + 1)

theorem satisfyAllCost_fst (c : Cfg) (v : Int) (p : Ptr) : Prod.fst <$> satisfyAllCost c v p = satisfyAll c v p := by
  unfold satisfyAllCost satisfyAll
  simp only [map_bind, map_pure]
  refine bind_congr fun _ => ?_
  rw [← satAllCost_fst c v (c.n + 1) p 0 (fun _ => 0) [] 0, bind_map_left]

theorem onMgr_map {α β : Type} (g : α → β) (m : M α) : onMgr (g <$> m) = g <$> onMgr m := by
  funext w
  show onMgr (g <$> m) w = _
  simp only [onMgr, Functor.map, StateT.map, bind, Except.bind, pure, Except.pure]
  cases m w.mgr <;> rfl

theorem execCost_fst (c : Cfg) (k : Call) : Prod.fst <$> execCost c k = exec c k := by
  cases k
  case evaluate a x =>
    simp only [execCost, exec, map_bind, map_pure]
    refine bind_congr fun p => ?_
    unfold evaluate
    rw [← evalCost_fst, onMgr_map, bind_map_left]
  case satisfyCount v a =>
    simp only [execCost, exec, map_bind, map_pure]
    refine bind_congr fun p => ?_
    rw [← satisfyCountCost_fst, onMgr_map, bind_map_left]
  case satisfyOne v a =>
    simp only [execCost, exec, map_bind, map_pure]
    refine bind_congr fun p => ?_
    rw [← satisfyOneCost_fst, onMgr_map, bind_map_left]
  case satisfyAll v a =>
    simp only [execCost, exec, map_bind, map_pure]
    refine bind_congr fun p => ?_
    rw [← satisfyAllCost_fst, onMgr_map, bind_map_left]
  all_goals simp only [execCost, map_bind, map_pure, bind_pure]

/-- What succeeds without the counter succeeds with it, and the other way round. -/
theorem of_fst {σ α : Type} {m : SM σ (α × Nat)} {m' : SM σ α} (h : Prod.fst <$> m = m') {s s' : σ} {a : α}
    (e : m' s = .ok (a, s')) : ∃ n, m s = .ok ((a, n), s') := by
  rw [← h] at e
  simp only [Functor.map, StateT.map, bind, Except.bind, pure, Except.pure] at e
  cases hm : m s with
  | error x => rw [hm] at e; cases e
  | ok r =>
      obtain ⟨⟨b, n⟩, s1⟩ := r
      rw [hm] at e
      cases e
      exact ⟨n, rfl⟩

theorem to_fst {σ α : Type} {m : SM σ (α × Nat)} {m' : SM σ α} (h : Prod.fst <$> m = m') {s s' : σ} {a : α} {n : Nat}
    (e : m s = .ok ((a, n), s')) : m' s = .ok (a, s') := by
  rw [← h]
  simp only [Functor.map, StateT.map, bind, Except.bind, pure, Except.pure, e]

section
variable {c : Cfg} {S : Mgr} {ext : Ptr → Nat} {root : Ptr}

/-! ### evaluate -/

theorem evalCost_ok (h : Inv c ext [] S) (ho : Ordered c S) {x : Asg} :
    ∀ (f : Nat) (p : Ptr) (v : Int), S.used p = true → Ev S.kind x p v → c.n - S.levelOf c p < f →
      ∃ k, evalCost f p x S = .ok ((v, k), S) ∧ k ≤ c.n - S.levelOf c p + 1 := by
  intro f
  induction f with
  | zero => intro p v _ _ hf; omega
  | succ f ih =>
      intro p v hp he hf
      simp only [evalCost]
      rw [bind_ok (getKind_ok hp)]
      cases he with
      | leaf hk =>
          rw [hk]
          exact ⟨1, rfl, by omega⟩
      | @inner _ q i ss _ hk hq hv =>
          rw [hk]
          dsimp only
          rw [bind_ok (getSon_ok hp hk hq)]
          have hmem := List.mem_of_getElem? hq
          have hlt := ho p i ss q hp hk hmem
          have hu := (h.sons p i ss hp hk).2.2 q hmem
          have := levelOf_le h hu
          obtain ⟨k, e, hk'⟩ := ih q v hu hv (by omega)
          rw [bind_ok e]
          exact ⟨k + 1, rfl, by omega⟩

/-! ### satisfy_count -/

theorem getKind_same {p : Ptr} {s : Mgr} : OkE (fun _ => True) (getKind p) s (fun _ s' => s' = s) := by
  by_cases h : s.used p = true
  · exact OkE.of_ok (Ok.of_eq (getKind_ok h) rfl)
  · unfold getKind
    refine OkE.bind (Q := fun _ _ => False) ?_ (fun _ _ h => h.elim)
    simp only [OkE, chkUsed, bind_run, get_run]
    rw [if_neg h]
    trivial

theorem getLevel_same {p : Ptr} {s : Mgr} : OkE (fun _ => True) (getLevel c p) s (fun _ s' => s' = s) := by
  by_cases h : s.used p = true
  · exact OkE.of_ok (Ok.of_eq (getLevel_ok h) rfl)
  · unfold getLevel
    refine OkE.bind (Q := fun _ _ => False) ?_ (fun _ _ h => h.elim)
    simp only [OkE, chkUsed, bind_run, get_run]
    rw [if_neg h]
    trivial

theorem liftE_same {α : Type} {e : Except Err α} {s : Mgr} :
    OkE (fun _ => True) (liftE e : M α) s (fun _ s' => s' = s) := by
  cases e with
  | ok a => exact rfl
  | error x => trivial

theorem satCountVisit_same {value : Int} {p : Ptr} {m : Ptr → Int} {s : Mgr} :
    OkE (fun _ => True) (satCountVisit c value p m) s (fun _ s' => s' = s) := by
  unfold satCountVisit
  refine OkE.bind getKind_same ?_
  rintro k _ rfl
  cases k with
  | leaf v => exact OkE.pure rfl
  | inner i ss =>
      refine OkE.bindGet ?_
      refine OkE.bind (foldL_ruleE (I := fun _ (_ : Int) s' => s' = _) ?_ ss 0 _ rfl) ?_
      · rintro q rest acc _ rfl
        refine OkE.bind getLevel_same ?_
        rintro l _ rfl
        refine OkE.bind (Q := fun _ s' => s' = _) (OkE.bindGet liftE_same) ?_
        rintro d _ rfl
        refine OkE.bind liftE_same ?_
        rintro d _ rfl
        exact liftE_same
      · rintro t _ rfl
        exact OkE.pure rfl

/-- `satisfy_count` computes a number for each node of the diagram once. -/
theorem satisfyCountCost_ok (h : Inv c ext [] S) (ho : Ordered c S) (hp : S.used root = true) (hcl : CleanBelow S root)
    {v : Int} {r : Int} {n : Nat} {S' : Mgr} (e : satisfyCountCost c v root S = .ok ((r, n), S')) :
    ∃ vs : List Ptr, vs.Nodup ∧ (∀ q, q ∈ vs ↔ Reach S.kind root q) ∧ n = vs.length := by
  have B : Below c S root := Below.of h ho hp
  have : OkE (fun _ => True) (satisfyCountCost c v root) S (fun r _ =>
      ∃ vs : List Ptr, vs.Nodup ∧ (∀ q, q ∈ vs ↔ Reach S.kind root q) ∧ r.2 = vs.length) := by
    unfold satisfyCountCost
    refine OkE.bind (Q := fun _ s => s = S) ?_ ?_
    · unfold assertValue
      split
      · split
        · trivial
        · exact rfl
      · exact rfl
    rintro _ _ rfl
    refine OkE.bind (traversePost_okE (E := fun _ => True) (I := fun ds (t : (Ptr → Int) × Nat) _ => t.2 = ds.length) B hcl
      rfl ?_) ?_
    · intro vs ds p t s hT hI hr _ _
      refine OkE.bind satCountVisit_same ?_
      rintro m _ rfl
      exact OkE.pure ⟨hT, by simp [hI]⟩
    · rintro t s ⟨vs, h1, h2, -, h3⟩
      refine OkE.bind (Q := fun _ _ => True) (getLevel_same.mono fun _ _ _ => trivial) ?_
      intro l s _
      refine OkE.bind (Q := fun _ _ => True) ((OkE.bindGet liftE_same).mono fun _ _ _ => trivial) ?_
      intro d s _
      refine OkE.bind (Q := fun _ _ => True) (liftE_same.mono fun _ _ _ => trivial) ?_
      intro x s _
      exact OkE.pure ⟨vs, h1, h2, h3⟩
  unfold OkE at this
  rw [e] at this
  exact this

/-! ### satisfy_one -/

/-- The sum of the numbers `wt` of the variables from level `l` on. -/
def sumFrom (c : Cfg) (S : Mgr) (wt : Nat → Nat) (l : Nat) : Nat := ((varsFrom c S l).map wt).sum

theorem sumFrom_cons {wt : Nat → Nat} {l : Nat} (h : l < c.n) :
    sumFrom c S wt l = wt (S.lvl2idx l) + sumFrom c S wt (l + 1) := by
  simp [sumFrom, varsFrom_cons h]

theorem sumFrom_mono {wt : Nat → Nat} {l k : Nat} (h : l ≤ k) : sumFrom c S wt k ≤ sumFrom c S wt l := by
  induction h with
  | refl => exact Nat.le_refl _
  | @step k _ ih =>
      refine Nat.le_trans ?_ ih
      by_cases hk : k < c.n
      · rw [sumFrom_cons hk]; exact Nat.le_add_left _ _
      · simp [sumFrom, varsFrom, show c.n - (k + 1) = 0 by omega]

theorem sumFrom_le (h : OrderOK c S) {wt : Nat → Nat} {D : Nat} (hD : ∀ i, i < c.n → wt i ≤ D) :
    sumFrom c S wt 0 ≤ D * c.n := by
  have gen : ∀ l : List Nat, (∀ i ∈ l, i < c.n) → (l.map wt).sum ≤ D * l.length := by
    intro l
    induction l with
    | nil => intro _; exact Nat.zero_le _
    | cons i l ih =>
        intro hl
        have h1 := hD i (hl i List.mem_cons_self)
        have h2 := ih fun j hj => hl j (List.mem_cons_of_mem _ hj)
        rw [List.map_cons, List.sum_cons, List.length_cons, Nat.mul_succ]
        omega
  have := gen (varsFrom c S 0) fun i hi => ((mem_varsFrom h).1 hi).1
  rwa [(varsFrom_zero_perm h).length_eq, List.length_range] at this

/-- Every internal node below `root` leads to `value`. -/
def Live (c : Cfg) (S : Mgr) (root : Ptr) (value : Int) : Prop :=
  ∀ q i ss, Reach S.kind root q → S.kind q = .inner i ss → ∃ z, Valid c z ∧ Ev S.kind z q value

theorem satOneCost_ok (h : Inv c ext [] S) (ho : Ordered c S) (hp : S.used root = true) {value : Int}
    (hl : Live c S root value) {wt : Nat → Nat} (hw : ∀ i, Tested S root i → c.dom i ≤ wt i) :
    ∀ (f : Nat) (p : Ptr) (x : Asg) (n : Nat), Reach S.kind root p → c.n - S.levelOf c p < f →
      ∃ b y m, satOneCost value f p x n S = .ok (((b, y), m), S) ∧ m ≤ n + 1 + sumFrom c S wt (S.levelOf c p) ∧
        (b = false → m = n + 1) := by
  intro f
  induction f with
  | zero => intro p x n _ hf; omega
  | succ f ih =>
      intro p x n hr hf
      have hup := hr.used h hp
      obtain ⟨b, y, e, -, -, -, hno⟩ := satOneImpl_any h ho (value := value) (f + 1) p x hup hf
      obtain ⟨m, e'⟩ := of_fst (satOneCost_fst value (f + 1) p x n) e
      refine ⟨b, y, m, e', ?_⟩
      simp only [satOneCost] at e'
      rw [bind_ok (getKind_ok hup)] at e'
      cases hk : S.kind p with
      | leaf v =>
          rw [hk] at e'
          cases e'
          exact ⟨by omega, fun _ => rfl⟩
      | inner i ss =>
          rw [hk] at e'
          dsimp only at e'
          obtain ⟨hi, hlen, hus⟩ := h.sons p i ss hup hk
          have hlp : S.levelOf c p = S.idx2lvl i := by simp [Mgr.levelOf, hk]
          have hil := h.order.i2l_lt i hi
          have hb : b ≠ false := by
            intro hb
            obtain ⟨z, hz, hev⟩ := hl p i ss hr hk
            exact hno hb z hz hev
          have loop : ∀ (qs : List Ptr) (k : Nat) (x : Asg) (n : Nat), (∀ q ∈ qs, q ∈ ss) →
              ∀ {b y m}, firstSonCost (satOneCost value f) i k qs x n S = .ok (((b, y), m), S) →
                m ≤ n + qs.length + sumFrom c S wt (S.levelOf c p + 1) := by
            intro qs
            induction qs with
            | nil => intro k x n _ b y m e; cases e; omega
            | cons q qs ihq =>
                intro k x n hsub b y m e
                have hq := hsub q (by simp)
                have hlq := ho p i ss q hup hk hq
                have hle := levelOf_le h (hus q hq)
                obtain ⟨b1, y1, m1, e1, hm1, hf1⟩ := ih q (upd x i k) n (hr.snoc hk hq) (by omega)
                have hmono := sumFrom_mono (c := c) (S := S) (wt := wt) (show S.levelOf c p + 1 ≤ S.levelOf c q by omega)
                simp only [firstSonCost] at e
                rw [bind_ok e1] at e
                cases b1 with
                | true =>
                    cases e
                    simp only [List.length_cons]
                    omega
                | false =>
                    have := ihq (k + 1) y1 m1 (fun r hr => hsub r (by simp [hr])) e
                    have := hf1 rfl
                    simp only [List.length_cons]
                    omega
          have h1 := loop ss 0 x (n + 1) (fun _ h => h) e'
          have h2 := hw i ⟨p, ss, hr, hk⟩
          rw [sumFrom_cons (by omega : S.levelOf c p < c.n), hlp, h.order.i2l2i i hi]
          rw [hlp] at h1
          exact ⟨by omega, fun hf => absurd hf hb⟩

/-! ### satisfy_all -/

theorem satAllCost_ok (h : Inv c ext [] S) (ho : Ordered c S) (hc : CfgOK c) (hp : S.used root = true) {value : Int}
    (hl : Live c S root value) :
    ∀ (f : Nat) (p : Ptr) (l : Nat) (x : Asg) (out : List (List Nat)) (n : Nat), Reach S.kind root p →
      l ≤ S.levelOf c p → c.n - l < f →
      ∃ y out' m k, satAllCost c value f p l x out n S = .ok (((y, out'), m), S) ∧ out'.length = out.length + k ∧
        m ≤ n + 1 + k * sumFrom c S c.dom l := by
  intro f
  induction f with
  | zero => intro p l x out n _ _ hf; omega
  | succ f ih =>
      intro p l x out n hr hlp hf
      have hup := hr.used h hp
      have hle := levelOf_le h hup
      obtain ⟨y, e, -⟩ := satAllImpl_ok h ho hc (value := value) (f + 1) p l x out hup hlp hf
      obtain ⟨m, e'⟩ := of_fst (satAllCost_fst c value (f + 1) p l x out n) e
      refine ⟨y, _, m, (sols c S value l p x).length, e', by simp, ?_⟩
      have some_sol : (∃ z, Valid c z ∧ Ev S.kind z p value) → 1 ≤ (sols c S value l p x).length := by
        rintro ⟨z, hz, hev⟩
        refine List.length_pos_of_mem (a := toList c.n (merge S l x
          (fun j => if j ∈ varsFrom c S l then z j else 0))) ?_
        refine List.mem_map.2 ⟨_, List.mem_filter.2 ⟨(mem_assignments (nodup_varsFrom h.order)).2 ⟨?_, ?_⟩, ?_⟩, rfl⟩
        · intro j hj
          rw [if_pos hj]
          exact hz j ((mem_varsFrom h.order).1 hj).1
        · intro j hj
          rw [if_neg hj]
        · rw [decide_eq_true_eq]
          refine valOf_eq (Ev.agree h ho hup ?_ (Ev.agreeN h hup (y := fun j => if j < c.n then z j else 0) ?_ hev))
          · intro j hj
            by_cases hjn : j < c.n
            · simp [hjn, (mem_varsFrom h.order).2 ⟨hjn, hlp.trans hj⟩]
            · have : j ∉ varsFrom c S l := fun hc => hjn ((mem_varsFrom h.order).1 hc).1
              simp [hjn, this]
          · intro j hj
            simp [hj]
      -- the loops
      have loop : ∀ {α : Type} (g : α → (Asg × List (List Nat)) × Nat → M ((Asg × List (List Nat)) × Nat)) (L : List α),
          (∀ a ∈ L, ∀ t, ∃ t' k, g a t S = .ok (t', S) ∧ t'.1.2.length = t.1.2.length + k ∧
            t'.2 ≤ t.2 + 1 + k * sumFrom c S c.dom (l + 1)) →
          ∀ t, ∃ t' k, foldL g L t S = .ok (t', S) ∧ t'.1.2.length = t.1.2.length + k ∧
            t'.2 ≤ t.2 + L.length + k * sumFrom c S c.dom (l + 1) := by
        intro α g L
        induction L with
        | nil => intro _ t; exact ⟨t, 0, rfl, rfl, by simp⟩
        | cons a L ihL =>
            intro hg t
            obtain ⟨t1, k1, e1, h1, h2⟩ := hg a (by simp) t
            obtain ⟨t2, k2, e2, h3, h4⟩ := ihL (fun a ha => hg a (by simp [ha])) t1
            refine ⟨t2, k1 + k2, ?_, by omega, ?_⟩
            · simp only [foldL]
              rw [bind_ok e1, e2]
            · simp only [List.length_cons, Nat.add_mul]
              omega
      have close : ∀ {α : Type} (g : α → (Asg × List (List Nat)) × Nat → M ((Asg × List (List Nat)) × Nat)) (L : List α),
          l < c.n → L.length = c.dom (S.lvl2idx l) → (∃ z, Valid c z ∧ Ev S.kind z p value) →
          (∀ a ∈ L, ∀ t, ∃ t' k, g a t S = .ok (t', S) ∧ t'.1.2.length = t.1.2.length + k ∧
            t'.2 ≤ t.2 + 1 + k * sumFrom c S c.dom (l + 1)) →
          foldL g L ((x, out), n + 1) S = .ok (((y, out ++ sols c S value l p x), m), S) →
          m ≤ n + 1 + (sols c S value l p x).length * sumFrom c S c.dom l := by
        intro α g L hln hL hz hg e
        obtain ⟨t, k, e1, h1, h2⟩ := loop g L hg ((x, out), n + 1)
        rw [e] at e1
        cases e1
        have hk : (sols c S value l p x).length = k := by simpa using h1
        have h3 := some_sol hz
        rw [hk] at h3 ⊢
        rw [sumFrom_cons hln, Nat.mul_add]
        have : c.dom (S.lvl2idx l) ≤ k * c.dom (S.lvl2idx l) := Nat.le_mul_of_pos_left _ h3
        simp only at h2
        omega
      simp only [satAllCost] at e'
      rw [bind_ok (getKind_ok hup)] at e'
      cases hk : S.kind p with
      | leaf v =>
          rw [hk] at e'
          dsimp only at e'
          by_cases hv : value = v
          · rw [if_neg (by simpa using hv)] at e'
            by_cases hln : l = c.n
            · rw [if_pos hln] at e'
              simp only [pure_run, Except.ok.injEq, Prod.mk.injEq] at e'
              omega
            · rw [if_neg hln, bind_ok (getIndex_ok (by omega))] at e'
              refine close _ _ (by omega) (by simp)
                ⟨fun _ => 0, fun i hi => hc.dom_pos i hi, by rw [hv]; exact .leaf hk⟩ ?_ e'
              intro k _ t
              have hlp' : S.levelOf c p = c.n := by simp [Mgr.levelOf, hk]
              obtain ⟨y1, o1, m1, k1, h1, h2, h3⟩ := ih p (l + 1) (upd t.1.1 (S.lvl2idx l) k) t.1.2 t.2 hr (by omega)
                (by omega)
              exact ⟨_, k1, h1, h2, h3⟩
          · rw [if_pos (by simpa using hv)] at e'
            simp only [pure_run, Except.ok.injEq, Prod.mk.injEq] at e'
            omega
      | inner i ss =>
          rw [hk] at e'
          obtain ⟨hi, hlen, hus⟩ := h.sons p i ss hup hk
          have hlv : S.levelOf c p = S.idx2lvl i := by simp [Mgr.levelOf, hk]
          have hil := h.order.i2l_lt i hi
          dsimp only at e'
          rw [if_neg (by omega), bind_ok (s' := S) (a := S) rfl] at e'
          by_cases hgt : S.idx2lvl i > l
          · rw [if_pos hgt, bind_ok (getIndex_ok (by omega))] at e'
            refine close _ _ (by omega) (by simp) (hl p i ss hr hk) ?_ e'
            intro k _ t
            obtain ⟨y1, o1, m1, k1, h1, h2, h3⟩ := ih p (l + 1) (upd t.1.1 (S.lvl2idx l) k) t.1.2 t.2 hr (by omega)
              (by omega)
            exact ⟨_, k1, h1, h2, h3⟩
          · rw [if_neg hgt] at e'
            have hli : S.idx2lvl i = l := by omega
            have hidx : S.lvl2idx l = i := by rw [← hli]; exact h.order.i2l2i i hi
            refine close _ _ (by omega) (by simp [hlen, hidx]) (hl p i ss hr hk) ?_ e'
            rintro ⟨q, k⟩ hqk t
            have hqs : q ∈ ss := (List.of_mem_zip hqk).1
            have hlq := ho p i ss q hup hk hqs
            obtain ⟨y1, o1, m1, k1, h1, h2, h3⟩ := ih q (l + 1) (upd t.1.1 i k) t.1.2 t.2 (hr.snoc hk hqs) (by omega)
              (by omega)
            exact ⟨_, k1, h1, h2, h3⟩

/-! ### Functions of two values -/

/-- A value below `root` is one of its values. -/
theorem reach_value (h : Inv c ext [] S) (ho : Ordered c S) (hc : CfgOK c) (hp : S.used root = true) {f : Asg → Int}
    (hd : Den c S root f) {q : Ptr} (hr : Reach S.kind root q) {z : Asg} (hz : Valid c z) {v : Int}
    (he : Ev S.kind z q v) : ∃ x, Valid c x ∧ f x = v := by
  obtain ⟨y, hy, hpath⟩ := path_to h ho hc hr hp
  let x : Asg := fun j => if S.idx2lvl j < S.levelOf c q then y j else z j
  have hx : Valid c x := by
    intro j hj
    simp only [x]
    split
    · exact hy j hj
    · exact hz j hj
  refine ⟨x, hx, (hd x hx).det ((hpath x v ?_).1 (Ev.agree h ho (hr.used h hp) ?_ he))⟩
  · intro j _ _ hj
    simp only [x, if_pos hj]
  · intro j hj
    simp only [x]
    rw [if_neg (by omega)]

theorem live_of_two {E : Env} (g : Good E ext S) (hcan : E.canon = true) (hp : S.used root = true) {f : Asg → Int}
    (hd : Den E.c S root f) {v u : Int} (htwo : ∀ x, Valid E.c x → f x = v ∨ f x = u) : Live E.c S root v := by
  intro q i ss hr hk
  by_contra hno
  have huq := hr.used g.inv hp
  have : S.kind q = .leaf u := by
    refine const_leaf g hcan huq fun x hx => ?_
    obtain ⟨w, hw⟩ := Ev.total g.inv g.ord hx q huq
    obtain ⟨y, hy, e⟩ := reach_value g.inv g.ord g.cfg hp hd hr hx hw
    rcases htwo y hy with h1 | h1
    · exact absurd ⟨x, hx, by rw [← h1, e]; exact hw⟩ hno
    · rw [← h1, e]; exact hw
  rw [hk] at this
  cases this

open Classical in
/-- There are at least as many nodes as tested variables. -/
theorem sum_tested {D : Nat} (hD : ∀ i, i < c.n → c.dom i ≤ D) (h : OrderOK c S) {vs : List Ptr}
    (hvs : ∀ q, q ∈ vs ↔ Reach S.kind root q) :
    sumFrom c S (fun i => if Tested S root i then c.dom i else 0) 0 ≤ D * vs.length := by
  let L := (varsFrom c S 0).filter fun i => Tested S root i
  have h1 : sumFrom c S (fun i => if Tested S root i then c.dom i else 0) 0 ≤ D * L.length := by
    have : ∀ l : List Nat, (∀ i ∈ l, i < c.n) →
        (l.map fun i => if Tested S root i then c.dom i else 0).sum ≤
          D * (l.filter fun i => Tested S root i).length := by
      intro l
      induction l with
      | nil => intro _; simp
      | cons i l ih =>
          intro hl
          have := ih fun j hj => hl j (by simp [hj])
          have := hD i (hl i (by simp))
          simp only [List.map_cons, List.sum_cons, List.filter_cons]
          by_cases ht : Tested S root i
          · simp only [ht, if_true, decide_true, List.length_cons, Nat.mul_add, Nat.mul_one]
            omega
          · simp only [ht, if_false, decide_false, Bool.false_eq_true]
            omega
    exact this _ fun i hi => ((mem_varsFrom h).1 hi).1
  have h2 : L.length ≤ vs.length := by
    let pick : Nat → Ptr := fun i => if ht : Tested S root i then ht.choose else 0
    have hpick : ∀ i ∈ L, pick i ∈ vs ∧ ∃ ss, S.kind (pick i) = .inner i ss := by
      intro i hi
      have ht : Tested S root i := by simpa using (List.mem_filter.1 hi).2
      simp only [pick, dif_pos ht]
      obtain ⟨ss, hr, hk⟩ := ht.choose_spec
      exact ⟨(hvs _).2 hr, ss, hk⟩
    have hnd : (L.map pick).Nodup := by
      refine List.Nodup.map_on ?_ ((nodup_varsFrom h).filter _)
      intro i hi j hj e
      obtain ⟨-, ss, hk⟩ := hpick i hi
      obtain ⟨-, ss', hk'⟩ := hpick j hj
      rw [e, hk'] at hk
      cases hk
      rfl
    have := (hnd.subperm (l₂ := vs) fun q hq => by
      obtain ⟨i, hi, rfl⟩ := List.mem_map.1 hq
      exact (hpick i hi).1).length_le
    simpa using this
  exact h1.trans (Nat.mul_le_mul_left _ h2)

/-! ### Parity: all paths are followed in search of a value the function does not take -/

/-- The parity of `b` and the variables from level `l` on. -/
def parFrom (c : Cfg) (S : Mgr) (l b : Nat) : Asg → Int := fun x => ((b + ((varsFrom c S l).map x).sum) % 2 : Nat)

theorem sum_upd {L : List Nat} {x : Asg} {i k : Nat} (h : i ∉ L) : (L.map (upd x i k)).sum = (L.map x).sum := by
  congr 1
  refine List.map_congr_left fun j hj => upd_other _ _ ?_
  rintro rfl
  exact h hj

theorem not_mem_varsFrom_succ (h : OrderOK c S) {l : Nat} (hl : l < c.n) : S.lvl2idx l ∉ varsFrom c S (l + 1) := by
  intro hc
  have := ((mem_varsFrom h).1 hc).2
  rw [h.l2i2l l hl] at this
  omega

theorem parFrom_upd (h : OrderOK c S) {l : Nat} (hl : l < c.n) (b k : Nat) (x : Asg) :
    parFrom c S l b (upd x (S.lvl2idx l) k) = parFrom c S (l + 1) (b + k) x := by
  unfold parFrom
  rw [varsFrom_cons hl, List.map_cons, List.sum_cons, upd_same, sum_upd (not_mem_varsFrom_succ h hl), Nat.add_assoc]

theorem parFrom_bit (l b : Nat) (x : Asg) : parFrom c S l b x = 0 ∨ parFrom c S l b x = 1 := by
  unfold parFrom
  omega

theorem parFrom_level (h : Inv c ext [] S) (ho : Ordered c S) (hc : CfgOK c) (hcan : Canon S)
    (h2 : ∀ i, i < c.n → c.dom i = 2) {p : Ptr} {l b : Nat} (hl : l ≤ c.n) (hp : S.used p = true)
    (hd : Den c S p (parFrom c S l b)) : S.levelOf c p = l := by
  refine Nat.le_antisymm ?_ ?_
  · by_cases hln : l < c.n
    · have hi := h.order.l2i_lt l hln
      have hdep : DependsOn c.n c.dom (parFrom c S l b) (S.lvl2idx l) := by
        refine ⟨fun _ => 0, 1, fun i hi => hc.dom_pos i hi, by rw [h2 _ hi]; decide, ?_⟩
        have e : (upd (fun _ => 0) (S.lvl2idx l) 0 : Asg) = fun _ => 0 := by
          funext j
          simp [upd_apply]
        have e2 := parFrom_upd h.order hln b 0 (fun _ => 0)
        rw [e] at e2
        rw [parFrom_upd h.order hln, e2]
        unfold parFrom
        omega
      obtain ⟨q, ss, hr, hk⟩ := depends_tested hd hdep
      have h1 := hr.level_le h ho hp
      have h3 : S.levelOf c q = S.idx2lvl (S.lvl2idx l) := by simp [Mgr.levelOf, hk]
      rw [h.order.l2i2l l hln] at h3
      omega
    · have := levelOf_le h hp
      omega
  · by_contra hlt
    cases hk : S.kind p with
    | leaf v =>
        simp only [Mgr.levelOf, hk] at hlt
        omega
    | inner i ss =>
        have hin := (h.sons p i ss hp hk).1
        obtain ⟨x, k, -, -, hne⟩ := (tested_iff h ho hc hcan hp hd hin).1 ⟨p, ss, .refl, hk⟩
        refine hne ?_
        have hni : i ∉ varsFrom c S l := by
          intro hm
          have := ((mem_varsFrom h.order).1 hm).2
          simp only [Mgr.levelOf, hk] at hlt
          omega
        unfold parFrom
        rw [sum_upd hni]

/-- What the parity tests: a leaf at the bottom, otherwise a node with two sons that denote parities again. -/
theorem parFrom_cases (h : Inv c ext [] S) (ho : Ordered c S) (hc : CfgOK c) (hcan : Canon S)
    (h2 : ∀ i, i < c.n → c.dom i = 2) {p : Ptr} {l b : Nat} (hl : l ≤ c.n) (hp : S.used p = true)
    (hd : Den c S p (parFrom c S l b)) :
    (l = c.n ∧ ∃ v, S.kind p = .leaf v ∧ (v = 0 ∨ v = 1)) ∨
    (l < c.n ∧ ∃ q0 q1, S.kind p = .inner (S.lvl2idx l) [q0, q1] ∧ S.used q0 = true ∧ S.used q1 = true ∧
      Den c S q0 (parFrom c S (l + 1) b) ∧ Den c S q1 (parFrom c S (l + 1) (b + 1))) := by
  have hlv := parFrom_level h ho hc hcan h2 hl hp hd
  cases hk : S.kind p with
  | leaf v =>
      refine .inl ⟨by simp only [Mgr.levelOf, hk] at hlv; omega, v, rfl, ?_⟩
      have := (Ev.leaf hk).det (hd (fun _ => 0) fun i hi => hc.dom_pos i hi)
      rw [this]
      exact parFrom_bit _ _ _
  | inner i ss =>
      obtain ⟨hin, hlen, hus⟩ := h.sons p i ss hp hk
      have hil := h.order.i2l_lt i hin
      simp only [Mgr.levelOf, hk] at hlv
      have hln : l < c.n := by omega
      have hidx : S.lvl2idx l = i := by rw [← hlv]; exact h.order.i2l2i i hin
      rw [h2 i hin] at hlen
      match ss, hlen with
      | [q0, q1], _ =>
          refine .inr ⟨hln, q0, q1, by rw [hidx], hus q0 (by simp), hus q1 (by simp), ?_, ?_⟩
          · intro x hx
            have := hd.son h ho hp hk (k := 0) (q := q0) rfl (by rw [h2 i hin]; decide) x hx
            dsimp only at this
            rwa [← hidx, parFrom_upd h.order hln] at this
          · intro x hx
            have := hd.son h ho hp hk (k := 1) (q := q1) rfl (by rw [h2 i hin]; decide) x hx
            dsimp only at this
            rwa [← hidx, parFrom_upd h.order hln] at this

theorem satOneCost_parity (h : Inv c ext [] S) (ho : Ordered c S) (hc : CfgOK c) (hcan : Canon S)
    (h2 : ∀ i, i < c.n → c.dom i = 2) {value : Int} (hv : value ≠ 0 ∧ value ≠ 1) :
    ∀ (d l b fuel : Nat) (p : Ptr) (x : Asg) (n : Nat), c.n - l = d → l ≤ c.n → d < fuel → S.used p = true →
      Den c S p (parFrom c S l b) →
      ∃ y, satOneCost value fuel p x n S = .ok (((false, y), n + (2 ^ (d + 1) - 1)), S) := by
  intro d
  induction d with
  | zero =>
      intro l b fuel p x n hd hl hf hp hden
      obtain ⟨fuel, rfl⟩ : ∃ k, fuel = k + 1 := ⟨fuel - 1, by omega⟩
      rcases parFrom_cases h ho hc hcan h2 hl hp hden with ⟨_, v, hk, h01⟩ | ⟨hlt, _⟩
      · simp only [satOneCost]
        rw [bind_ok (getKind_ok hp), hk]
        refine ⟨x, ?_⟩
        have : (v == value) = false := by
          rw [beq_eq_false_iff_ne]
          omega
        simp only [this]
        rfl
      · omega
  | succ d ih =>
      intro l b fuel p x n hd hl hf hp hden
      obtain ⟨fuel, rfl⟩ : ∃ k, fuel = k + 1 := ⟨fuel - 1, by omega⟩
      rcases parFrom_cases h ho hc hcan h2 hl hp hden with ⟨hln, _⟩ | ⟨hlt, q0, q1, hk, hu0, hu1, d0, d1⟩
      · omega
      · simp only [satOneCost]
        rw [bind_ok (getKind_ok hp), hk]
        obtain ⟨y0, e0⟩ := ih (l + 1) b fuel q0 (upd x (S.lvl2idx l) 0) (n + 1) (by omega) (by omega) (by omega) hu0 d0
        obtain ⟨y1, e1⟩ := ih (l + 1) (b + 1) fuel q1 (upd y0 (S.lvl2idx l) 1) (n + 1 + (2 ^ (d + 1) - 1)) (by omega)
          (by omega) (by omega) hu1 d1
        refine ⟨y1, ?_⟩
        simp only [firstSonCost]
        rw [bind_ok e0]
        simp only [Bool.false_eq_true, if_false]
        rw [bind_ok e1]
        simp only [Bool.false_eq_true, if_false]
        have : n + 1 + (2 ^ (d + 1) - 1) + (2 ^ (d + 1) - 1) = n + (2 ^ (d + 1 + 1) - 1) := by
          have h1 := Nat.one_le_two_pow (n := d + 1)
          rw [Nat.pow_succ 2 (d + 1)]
          omega
        rw [this]
        rfl

theorem satAllCost_parity (h : Inv c ext [] S) (ho : Ordered c S) (hc : CfgOK c) (hcan : Canon S)
    (h2 : ∀ i, i < c.n → c.dom i = 2) {value : Int} (hv : value ≠ 0 ∧ value ≠ 1) :
    ∀ (d l b fuel : Nat) (p : Ptr) (x : Asg) (out : List (List Nat)) (n : Nat), c.n - l = d → l ≤ c.n → d < fuel →
      S.used p = true → Den c S p (parFrom c S l b) →
      ∃ y, satAllCost c value fuel p l x out n S = .ok (((y, out), n + (2 ^ (d + 1) - 1)), S) := by
  intro d
  induction d with
  | zero =>
      intro l b fuel p x out n hd hl hf hp hden
      obtain ⟨fuel, rfl⟩ : ∃ k, fuel = k + 1 := ⟨fuel - 1, by omega⟩
      rcases parFrom_cases h ho hc hcan h2 hl hp hden with ⟨_, v, hk, h01⟩ | ⟨hlt, _⟩
      · simp only [satAllCost]
        rw [bind_ok (getKind_ok hp), hk]
        refine ⟨x, ?_⟩
        dsimp only
        rw [if_pos (by omega)]
        rfl
      · omega
  | succ d ih =>
      intro l b fuel p x out n hd hl hf hp hden
      obtain ⟨fuel, rfl⟩ : ∃ k, fuel = k + 1 := ⟨fuel - 1, by omega⟩
      rcases parFrom_cases h ho hc hcan h2 hl hp hden with ⟨hln, _⟩ | ⟨hlt, q0, q1, hk, hu0, hu1, d0, d1⟩
      · omega
      · simp only [satAllCost]
        rw [bind_ok (getKind_ok hp), hk]
        obtain ⟨y0, e0⟩ := ih (l + 1) b fuel q0 (upd x (S.lvl2idx l) 0) out (n + 1) (by omega) (by omega) (by omega) hu0 d0
        obtain ⟨y1, e1⟩ := ih (l + 1) (b + 1) fuel q1 (upd y0 (S.lvl2idx l) 1) out (n + 1 + (2 ^ (d + 1) - 1)) (by omega)
          (by omega) (by omega) hu1 d1
        refine ⟨y1, ?_⟩
        dsimp only
        rw [if_neg (by omega), bind_ok (s' := S) (a := S) rfl, if_neg (by rw [h.order.l2i2l l hlt]; omega)]
        show foldL _ [(q0, 0), (q1, 1)] _ S = _
        simp only [foldL]
        rw [bind_ok e0, bind_ok e1]
        have : n + 1 + (2 ^ (d + 1) - 1) + (2 ^ (d + 1) - 1) = n + (2 ^ (d + 1 + 1) - 1) := by
          have h1 := Nat.one_le_two_pow (n := d + 1)
          rw [Nat.pow_succ 2 (d + 1)]
          omega
        rw [this]
        rfl

end

end Teddy
