import Verif.Dot
import Verif.Proofs.Observe

/-! The graph printed by `to_dot_graph`. -/

namespace Teddy

open SM Spec

/-! ### Text -/

theorem toString_nat_inj {a b : Nat} (h : (toString a : String) = toString b) : a = b := by
  have h' : a.repr = b.repr := h
  have := congrArg String.toList h'
  rw [Nat.toList_repr, Nat.toList_repr] at this
  rw [← Nat.ofDigitChars_ten_toDigits (n := a), this, Nat.ofDigitChars_ten_toDigits]

theorem append_left_inj {s a b : String} (h : s ++ a = s ++ b) : a = b := by
  have := congrArg String.toList h
  rw [String.toList_append, String.toList_append] at this
  exact String.toList_inj.1 (List.append_cancel_left this)

theorem varText_inj {i j : Nat} (h : Dot.varText i = Dot.varText j) : i = j :=
  toString_nat_inj (append_left_inj h)

theorem arcText_inj {binary : Bool} {i j : Nat} (hb : binary = true → i < 2 ∧ j < 2)
    (h : Dot.arcText binary i = Dot.arcText binary j) : i = j := by
  unfold Dot.arcText at h
  cases binary with
  | false => exact toString_nat_inj (append_left_inj h)
  | true =>
      obtain ⟨hi, hj⟩ := hb rfl
      rcases (by omega : i = 0 ∨ i = 1) with rfl | rfl <;> rcases (by omega : j = 0 ∨ j = 1) with rfl | rfl
      · rfl
      · simp at h
      · simp at h
      · rfl

theorem valueText_inj {v u : Int} (hv : 0 ≤ v) (hu : 0 ≤ u) (h : Dot.valueText v = Dot.valueText u) : v = u := by
  obtain ⟨a, rfl⟩ := Int.eq_ofNat_of_zero_le hv
  obtain ⟨b, rfl⟩ := Int.eq_ofNat_of_zero_le hu
  unfold Dot.valueText at h
  have key : ∀ k : Nat, (toString (k : Int) : String) ≠ "*" := by
    intro k hk
    have hk' : k.repr = "*" := hk
    have := congrArg String.toList hk'
    rw [Nat.toList_repr] at this
    have hd : '*' ∈ Nat.toDigits 10 k := by rw [this]; decide
    exact absurd (Nat.isDigit_of_mem_toDigits (by decide) (by decide) hd) (by decide)
  split at h <;> rename_i h1 <;> split at h <;> rename_i h2
  · rw [h1, h2]
  · exact absurd h.symm (key b)
  · exact absurd h (key a)
  · have h' : (toString a : String) = toString b := h
    rw [toString_nat_inj h']

/-! ### The graph of a list of nodes -/

section
variable {c : Cfg} {ext : Ptr → Nat} {S : Mgr} {root : Ptr}

/-- The arcs printed for `p`. -/
def arcsOf (c : Cfg) (S : Mgr) (binary : Bool) (p : Ptr) : List (Nat × Nat × String) :=
  ((S.sonsOf p).zip (List.range (S.sonsOf p).length)).map fun e => (c.addr p, c.addr e.1, Dot.arcText binary e.2)

/-- Is `p` a terminal. -/
def isLeaf (S : Mgr) (p : Ptr) : Bool :=
  match S.kind p with
  | .leaf _ => true
  | .inner _ _ => false

/-- The graph of the nodes `vs`. -/
def dotOf (c : Cfg) (S : Mgr) (binary : Bool) (vs : List Ptr) : Dot where
  nodes := vs.map fun p => (c.addr p, makeLabel (S.kind p), S.refs p)
  squares := (vs.filter (isLeaf S)).map c.addr
  arcs := vs.flatMap (arcsOf c S binary)
  ranks := (List.range (c.n + 1)).map fun l => (vs.filter fun p => S.levelOf c p == l).map c.addr

theorem dotOf_nil {binary : Bool} : dotOf c S binary [] = dotEmpty c := by
  simp [dotOf, dotEmpty]

theorem modify_ranks {n l : Nat} {F : Nat → List Nat} {a : Nat} :
    ((List.range (n + 1)).map F).modify l (· ++ [a]) =
      (List.range (n + 1)).map fun k => F k ++ if l = k then [a] else [] := by
  refine List.ext_getElem (by simp) ?_
  intro k h1 h2
  rw [List.getElem_modify]
  simp only [List.getElem_map, List.getElem_range]
  split <;> simp

theorem addArcs_ok {a : Nat} {binary : Bool} (l : List (Ptr × Nat)) (g : Dot) (s : Mgr) :
    foldL (fun (e : Ptr × Nat) (g : Dot) =>
      (pure { g with arcs := g.arcs ++ [(a, c.addr e.1, Dot.arcText binary e.2)] } : M Dot)) l g s =
      .ok ({ g with arcs := g.arcs ++ l.map fun e => (a, c.addr e.1, Dot.arcText binary e.2) }, s) := by
  induction l generalizing g with
  | nil => simp [foldL]
  | cons e l ih =>
      rw [foldL, bind_ok (a := { g with arcs := g.arcs ++ [(a, c.addr e.1, Dot.arcText binary e.2)] }) (s' := s) rfl,
        ih]
      simp

theorem dotVisit_ok {binary : Bool} {vs : List Ptr} {p : Ptr} {s : Mgr} (hu : s.used p = true)
    (hk : s.kind = S.kind) (hi : s.idx2lvl = S.idx2lvl) (hr : s.refs = S.refs) :
    dotVisit c binary p (dotOf c S binary vs) s = .ok (dotOf c S binary (vs ++ [p]), s) := by
  unfold dotVisit
  rw [bind_ok (getLevel_ok hu), bind_ok (getKind_ok hu), bind_ok (a := s) (s' := s) rfl]
  have hl : s.levelOf c p = S.levelOf c p := by unfold Mgr.levelOf; rw [hk, hi]
  rw [hl, hr, hk]
  cases hkp : S.kind p with
  | leaf v =>
      have hlev : S.levelOf c p = c.n := by simp [Mgr.levelOf, hkp]
      dsimp only
      refine congrArg (fun g : Dot => (Except.ok (g, s) : Except Err (Dot × Mgr))) ?_
      simp only [dotOf, List.map_append, List.map_cons, List.map_nil, List.filter_append, List.flatMap_append,
        hkp, modify_ranks]
      congr 1
      · simp [isLeaf, hkp]
      · simp [arcsOf, Mgr.sonsOf, hkp]
      · refine List.map_congr_left ?_
        intro k _
        congr 1
        rw [List.filter_cons, hlev]
        by_cases e : c.n = k <;> simp [e]
  | inner i ss =>
      have hlev : S.levelOf c p = S.idx2lvl i := by simp [Mgr.levelOf, hkp]
      dsimp only
      rw [addArcs_ok]
      refine congrArg (fun g : Dot => (Except.ok (g, s) : Except Err (Dot × Mgr))) ?_
      simp only [dotOf, List.map_append, List.map_cons, List.map_nil, List.filter_append, List.flatMap_append,
        hkp, modify_ranks]
      congr 1
      · simp [isLeaf, hkp]
      · simp [arcsOf, Mgr.sonsOf, hkp]
      · refine List.map_congr_left ?_
        intro k _
        congr 1
        rw [List.filter_cons, hlev]
        by_cases e : S.idx2lvl i = k <;> simp [e]

/-- The traversal prints the graph of the nodes below the root. -/
theorem toDot_ok (h : Inv c ext [] S) (ho : Ordered c S) (hp : S.used root = true)
    (hcl : CleanBelow S root) (binary : Bool) :
    Ok (toDot c binary root) S (fun t s' => s' = S ∧ ∃ vs : List Ptr, vs.Nodup ∧
      (∀ q, q ∈ vs ↔ Reach S.kind root q) ∧ t = (dotOf c S binary vs).text) := by
  have B := Below.of h ho hp
  unfold toDot
  refine Ok.bind (traversePre_ok (I := fun vs g d => d = S.data ∧ g = dotOf c S binary vs) B hcl
    ⟨rfl, dotOf_nil.symm⟩ ?_) ?_
  · rintro vs p g s hT ⟨hd, rfl⟩ hr _
    refine Ok.of_eq (dotVisit_ok (by rw [hT.used]; exact B.used p hr) hT.kind hT.i2l (by rw [hT])) ⟨hT, hd, rfl⟩
  · rintro g s' ⟨vs, h1, h2, h3, h4, rfl⟩
    rw [h4] at h3
    exact Ok.pure ⟨h3, vs, h1, h2, rfl⟩

/-! ### Reading the graph -/

variable {binary : Bool} {vs : List Ptr}

theorem mem_nodes {t : Nat × String × Nat} : t ∈ (dotOf c S binary vs).nodes ↔
    ∃ p ∈ vs, t = (c.addr p, makeLabel (S.kind p), S.refs p) := by
  simp only [dotOf, List.mem_map]
  exact ⟨fun ⟨p, h, e⟩ => ⟨p, h, e.symm⟩, fun ⟨p, h, e⟩ => ⟨p, h, e.symm⟩⟩

theorem mem_squares (hinj : Function.Injective c.addr) {p : Ptr} :
    c.addr p ∈ (dotOf c S binary vs).squares ↔ p ∈ vs ∧ ∃ v, S.kind p = .leaf v := by
  simp only [dotOf, List.mem_map, List.mem_filter]
  have hl : ∀ q, isLeaf S q = true ↔ ∃ v, S.kind q = .leaf v := by
    intro q
    unfold isLeaf
    cases S.kind q <;> simp
  constructor
  · rintro ⟨q, ⟨h1, h2⟩, e⟩
    cases hinj e
    exact ⟨h1, (hl _).1 h2⟩
  · rintro ⟨h1, h2⟩
    exact ⟨p, ⟨h1, (hl p).2 h2⟩, rfl⟩

theorem mem_arcs {a : Nat × Nat × String} : a ∈ (dotOf c S binary vs).arcs ↔
    ∃ p ∈ vs, ∃ i ss, S.kind p = .inner i ss ∧ ∃ (k : Nat) (q : Ptr), ss[k]? = some q ∧
      a = (c.addr p, c.addr q, Dot.arcText binary k) := by
  simp only [dotOf, List.mem_flatMap, arcsOf, List.mem_map]
  constructor
  · rintro ⟨p, hp, ⟨q, k⟩, he, rfl⟩
    cases hk : S.kind p with
    | leaf v => simp [Mgr.sonsOf, hk] at he
    | inner i ss =>
        simp only [Mgr.sonsOf, hk] at he
        obtain ⟨j, hj⟩ := List.getElem?_of_mem he
        rw [List.getElem?_zip_eq_some] at hj
        obtain ⟨h1, h2⟩ := hj
        obtain ⟨hlt, h3⟩ := List.getElem?_eq_some_iff.1 h2
        rw [List.getElem_range] at h3
        subst h3
        exact ⟨p, hp, i, ss, hk, j, q, h1, rfl⟩
  · rintro ⟨p, hp, i, ss, hk, k, q, hq, rfl⟩
    refine ⟨p, hp, (q, k), ?_, rfl⟩
    simp only [Mgr.sonsOf, hk]
    obtain ⟨hlt, _⟩ := List.getElem?_eq_some_iff.1 hq
    refine List.mem_of_getElem? (i := k) ?_
    rw [List.getElem?_zip_eq_some]
    exact ⟨hq, by rw [List.getElem?_range hlt]⟩

theorem dot_ids : (dotOf c S binary vs).ids = vs.map c.addr := by
  simp [Dot.ids, dotOf]

theorem ids_nodup (hinj : Function.Injective c.addr) (hn : vs.Nodup) : (dotOf c S binary vs).ids.Nodup := by
  rw [dot_ids]
  exact hn.map hinj

/-- What a reader finds is the value of the node. -/
theorem follows_of_ev {x : Asg} {v : Int} (hinj : Function.Injective c.addr) {p : Ptr}
    (he : Ev S.kind x p v) (hin : ∀ q, Reach S.kind p q → q ∈ vs ∨ ∃ u, S.kind q = .leaf u ∧ u ≠ v) :
    (dotOf c S binary vs).Follows binary x (c.addr p) (Dot.valueText v) := by
  induction he with
  | @leaf p v hk =>
      have hp : p ∈ vs := by
        rcases hin p .refl with h | ⟨u, hu, hne⟩
        · exact h
        · rw [hk] at hu; cases hu; exact absurd rfl hne
      refine .square (tip := S.refs p) (mem_nodes.2 ⟨p, hp, ?_⟩) ((mem_squares hinj).2 ⟨hp, v, hk⟩)
      simp [makeLabel, hk]
  | @inner p q i ss v hk hq _ ih =>
      have hp : p ∈ vs := by
        rcases hin p .refl with h | ⟨u, hu, _⟩
        · exact h
        · rw [hk] at hu; cases hu
      refine .arc (tip := S.refs p) (i := i) (mem_nodes.2 ⟨p, hp, ?_⟩) ?_
        (mem_arcs.2 ⟨p, hp, i, ss, hk, x i, q, hq, rfl⟩) (ih ?_)
      · simp [makeLabel, hk]
      · intro h
        obtain ⟨_, v', hv'⟩ := (mem_squares hinj).1 h
        rw [hk] at hv'; cases hv'
      · intro r hr
        exact hin r (.step hk (List.mem_of_getElem? hq) hr)

theorem ev_of_follows (hinj : Function.Injective c.addr) {x : Asg} {id : Nat} {l : String}
    (h : Inv c ext [] S) (hb : binary = true → ∀ i, i < c.n → c.dom i ≤ 2) (hx : Valid c x)
    (hu : ∀ q ∈ vs, S.used q = true)
    (hf : (dotOf c S binary vs).Follows binary x id l) :
    ∀ p, id = c.addr p → ∃ v, l = Dot.valueText v ∧ Ev S.kind x p v ∧ ∃ q ∈ vs, S.kind q = .leaf v := by
  induction hf with
  | square hn hs =>
      rintro p rfl
      obtain ⟨hpv, v, hk⟩ := (mem_squares hinj).1 hs
      obtain ⟨q, _, e⟩ := mem_nodes.1 hn
      simp only [Prod.mk.injEq] at e
      cases hinj e.1
      exact ⟨v, by rw [e.2.1]; simp [makeLabel, hk], .leaf hk, p, hpv, hk⟩
  | @arc id id' tip i l hn hs ha _ ih =>
      rintro p rfl
      obtain ⟨q, hq, e⟩ := mem_nodes.1 hn
      simp only [Prod.mk.injEq] at e
      cases hinj e.1
      cases hk : S.kind p with
      | leaf v => exact absurd ((mem_squares hinj).2 ⟨hq, v, hk⟩) hs
      | inner j ss =>
          have hij : i = j := varText_inj (by rw [e.2.1]; simp [makeLabel, hk])
          subst hij
          obtain ⟨p', hp', i', ss', hk', k, r, hr, ea⟩ := mem_arcs.1 ha
          simp only [Prod.mk.injEq] at ea
          cases hinj ea.1
          rw [hk] at hk'
          cases hk'
          obtain ⟨hi, hlen, _⟩ := h.sons p i ss (hu p hq) hk
          obtain ⟨hlt, _⟩ := List.getElem?_eq_some_iff.1 hr
          have hxi := hx i hi
          have hkx : x i = k := arcText_inj (fun b => by
            have := hb b i hi
            exact ⟨by omega, by omega⟩) ea.2.2
          obtain ⟨v, hv, hev, hm⟩ := ih r ea.2.1
          exact ⟨v, hv, .inner hk (by rw [hkx]; exact hr) hev, hm⟩

theorem reach_last {kind : Ptr → Kind} {r p : Ptr} (hr : Reach kind r p) :
    p = r ∨ ∃ q i ss, Reach kind r q ∧ kind q = .inner i ss ∧ p ∈ ss := by
  induction hr with
  | refl => exact Or.inl rfl
  | @step a b d i ss hk hb hbd ih =>
      rcases ih with rfl | ⟨q, j, tt, hq, hkq, hm⟩
      · exact Or.inr ⟨a, i, ss, .refl, hk, hb⟩
      · exact Or.inr ⟨q, j, tt, .step hk hb hq, hkq, hm⟩

theorem below_level (h : Inv c ext [] S) (ho : Ordered c S) {r p : Ptr} (hr : Reach S.kind r p)
    (hu : S.used r = true) : S.levelOf c r ≤ S.levelOf c p := by
  induction hr with
  | refl => exact le_refl _
  | step hk hq _ ih =>
      have h1 := ho _ _ _ _ hu hk hq
      have h2 := ih (Reach.used h (.step hk hq .refl) hu)
      omega

/-- The root is the only node without an arc to it. -/
theorem dot_root (hinj : Function.Injective c.addr) (h : Inv c ext [] S) (ho : Ordered c S)
    (hp : S.used root = true) (hvs : ∀ q, q ∈ vs ↔ Reach S.kind root q) :
    (dotOf c S binary vs).IsRoot (c.addr root) := by
  have B := Below.of h ho hp
  refine ⟨by rw [dot_ids]; exact List.mem_map_of_mem ((hvs root).2 .refl), ?_⟩
  intro id hid
  rw [dot_ids] at hid
  obtain ⟨p, hpv, rfl⟩ := List.mem_map.1 hid
  constructor
  · intro hno
    by_contra hne
    have hr := (hvs p).1 hpv
    have : p = root ∨ ∃ q i ss, Reach S.kind root q ∧ S.kind q = .inner i ss ∧ p ∈ ss := by
      exact reach_last hr
    rcases this with rfl | ⟨q, i, ss, hq, hk, hm⟩
    · exact hne rfl
    · obtain ⟨k, hkm⟩ := List.getElem?_of_mem hm
      exact hno _ (mem_arcs.2 ⟨q, (hvs q).2 hq, i, ss, hk, k, p, hkm, rfl⟩) rfl
  · intro e
    cases hinj e
    rintro a ha rfl2
    obtain ⟨q, hq, i, ss, hk, k, r, hr, rfl⟩ := mem_arcs.1 ha
    cases hinj rfl2
    have h1 := ho q i ss root (B.used q ((hvs q).1 hq)) hk (List.mem_of_getElem? hr)
    have h2 := below_level h ho ((hvs q).1 hq) hp
    omega

/-- The nodes of a level. -/
theorem dot_ranks (hinj : Function.Injective c.addr) (h : Inv c ext [] S) (hu : ∀ q ∈ vs, S.used q = true)
    {l : Nat} (hl : l < c.n) {id : Nat} :
    id ∈ (dotOf c S binary vs).ranks.getD l [] ↔ id ∉ (dotOf c S binary vs).squares ∧
      ∃ tip, (id, Dot.varText ((levelVars c S).getD l 0), tip) ∈ (dotOf c S binary vs).nodes := by
  have e1 : (dotOf c S binary vs).ranks.getD l [] = (vs.filter fun p => S.levelOf c p == l).map c.addr := by
    simp [dotOf, List.getD, List.getElem?_map, List.getElem?_range (by omega : l < c.n + 1)]
  have e2 : (levelVars c S).getD l 0 = S.lvl2idx l := by
    simp [levelVars, List.getD, List.getElem?_map, List.getElem?_range hl]
  rw [e1, e2, List.mem_map]
  constructor
  · rintro ⟨p, hp, rfl⟩
    obtain ⟨hpv, hlev⟩ := List.mem_filter.1 hp
    rw [beq_iff_eq] at hlev
    cases hk : S.kind p with
    | leaf v =>
        have : S.levelOf c p = c.n := by simp [Mgr.levelOf, hk]
        omega
    | inner i ss =>
        have hi := (h.sons p i ss (hu p hpv) hk).1
        have hlv : S.levelOf c p = S.idx2lvl i := by simp [Mgr.levelOf, hk]
        refine ⟨?_, S.refs p, mem_nodes.2 ⟨p, hpv, ?_⟩⟩
        · intro hs
          obtain ⟨_, v, hv⟩ := (mem_squares hinj).1 hs
          rw [hk] at hv; cases hv
        · rw [← hlev, hlv, h.order.i2l2i i hi]
          simp [makeLabel, hk]
  · rintro ⟨hs, tip, hn⟩
    obtain ⟨p, hp, e⟩ := mem_nodes.1 hn
    simp only [Prod.mk.injEq] at e
    obtain ⟨rfl, e2, -⟩ := e
    refine ⟨p, List.mem_filter.2 ⟨hp, ?_⟩, rfl⟩
    cases hk : S.kind p with
    | leaf v => exact absurd ((mem_squares hinj).2 ⟨hp, v, hk⟩) hs
    | inner i ss =>
        have hi : S.lvl2idx l = i := varText_inj (by rw [e2]; simp [makeLabel, hk])
        rw [beq_iff_eq]
        have hlv : S.levelOf c p = S.idx2lvl i := by simp [Mgr.levelOf, hk]
        rw [hlv, ← hi, h.order.l2i2l l hl]

theorem dot_ranks_last (h : Inv c ext [] S) (hu : ∀ q ∈ vs, S.used q = true) :
    (dotOf c S binary vs).ranks.getD c.n [] = (dotOf c S binary vs).squares := by
  simp only [dotOf, List.getD, List.getElem?_map, List.getElem?_range (by omega : c.n < c.n + 1), Option.map_some,
    Option.getD_some]
  congr 1
  refine List.filter_congr ?_
  intro p hp
  cases hk : S.kind p with
  | leaf v => simp [isLeaf, hk, Mgr.levelOf]
  | inner i ss =>
      have := h.order.i2l_lt i (h.sons p i ss (hu p hp) hk).1
      simp only [isLeaf, hk, Mgr.levelOf, beq_eq_false_iff_ne]
      omega

/-! ### All nodes -/

/-- The nodes `for_each_node` visits. -/
def nodeList (c : Cfg) (S : Mgr) : List Ptr :=
  (List.range c.n).flatMap (fun i => (S.tables i).nodes) ++ S.terminals.filterMap id

theorem foldL_add {σ α τ : Type} {f : α → τ → SM σ τ} :
    ∀ (l l' : List α) (t : τ), foldL f (l ++ l') t = foldL f l t >>= foldL f l' := by
  intro l
  induction l with
  | nil => intro l' t; simp [foldL]
  | cons a l ih => intro l' t; simp [foldL, ih]

theorem foldL_flatMap {σ α β τ : Type} {f : α → τ → SM σ τ} {F : β → List α} :
    ∀ (l : List β) (t : τ), foldL (fun b t => foldL f (F b) t) l t = foldL f (l.flatMap F) t := by
  intro l
  induction l with
  | nil => intro t; simp [foldL]
  | cons a l ih => intro t; simp [foldL, foldL_add, ih]

theorem foldL_somes {σ α τ : Type} {f : α → τ → SM σ τ} :
    ∀ (l : List (Option α)) (t : τ), foldL (fun o t => match o with
      | some p => f p t
      | none => pure t) l t = foldL f (l.filterMap id) t := by
  intro l
  induction l with
  | nil => intro t; simp [foldL]
  | cons a l ih =>
      intro t
      cases a with
      | none => simp [foldL, ih]
      | some a => simp [foldL, ih]

theorem dotVisit_all {l : List Ptr} (hu : ∀ q ∈ l, S.used q = true) :
    ∀ vs, foldL (dotVisit c binary) l (dotOf c S binary vs) S = .ok (dotOf c S binary (vs ++ l), S) := by
  induction l with
  | nil => intro vs; simp [foldL]
  | cons p l ih =>
      intro vs
      rw [foldL, bind_ok (dotVisit_ok (hu p (by simp)) rfl rfl rfl), ih (fun q hq => hu q (by simp [hq]))]
      simp

/-- The iterator over a table meets its nodes. -/
theorem tableNodes_ok (h : Inv c ext [] S) {i : Nat} (hi : i < c.n) : tableNodes i S = .ok ((S.tables i).nodes, S) := by
  unfold tableNodes
  rw [bind_ok (a := S) (s' := S) rfl, Links.followAll_spec (C := (S.tables i).buckets) _
    (fun b hb => h.link.tab i hi b (List.mem_range.1 hb))
    (fun b hb => Nat.lt_succ_of_le (h.bucketLen hi (List.mem_range.1 hb)))]
  rfl

theorem dotVisit_tables (h : Inv c ext [] S) : ∀ (is : List Nat) (vs : List Ptr), (∀ i ∈ is, i < c.n) →
    foldL (fun i t => do foldL (dotVisit c binary) (← tableNodes i) t) is (dotOf c S binary vs) S =
      .ok (dotOf c S binary (vs ++ is.flatMap fun i => (S.tables i).nodes), S) := by
  intro is
  induction is with
  | nil => intro vs _; simp [foldL]
  | cons i is ih =>
      intro vs hlt
      have hi := hlt i (by simp)
      rw [foldL, bind_ok (a := dotOf c S binary (vs ++ (S.tables i).nodes)) (s' := S)
        (by rw [bind_ok (tableNodes_ok h hi)]; exact dotVisit_all (fun q hq => h.tabUsed hi hq) vs),
        ih _ fun j hj => hlt j (by simp [hj])]
      simp

theorem mem_nodeList (h : Inv c ext [] S) {p : Ptr} :
    p ∈ nodeList c S ↔ S.used p = true ∧ S.kind p ≠ .leaf Undefined := by
  have hm : p ∈ nodeList c S ↔ (∃ i, i < c.n ∧ p ∈ (S.tables i).nodes) ∨ some p ∈ S.terminals := by
    simp [nodeList]
  rw [hm, h.placed p]
  constructor
  · rintro (⟨i, hi, hp⟩ | hp)
    · refine ⟨Or.inl ⟨i, hi, hp⟩, ?_⟩
      obtain ⟨ss, hk⟩ := h.tabKind i hi p hp
      rw [hk]; simp
    · refine ⟨Or.inr (Or.inr (Or.inl hp)), ?_⟩
      obtain ⟨v, hv⟩ := List.getElem?_of_mem hp
      obtain ⟨hk, hne⟩ := h.termKind v p hv
      rw [hk]
      intro e
      exact hne (Kind.leaf.inj e)
  · rintro ⟨hp | hp | hp | hp, hne⟩
    · exact Or.inl hp
    · simp at hp
    · exact Or.inr hp
    · exact absurd (h.specKind p hp) hne

theorem nodeList_nodup (h : Inv c ext [] S) : (nodeList c S).Nodup := by
  unfold nodeList
  refine List.nodup_append.2 ⟨?_, ?_, ?_⟩
  · rw [List.nodup_flatMap]
    refine ⟨fun i hi => (h.tabWF i (List.mem_range.1 hi)).nodup_nodes, ?_⟩
    refine List.Pairwise.imp_of_mem (R := (· ≠ ·)) ?_ List.nodup_range
    intro i j hi hj hne
    refine List.disjoint_left.2 ?_
    intro p hp hq
    obtain ⟨ss, hk⟩ := h.tabKind i (List.mem_range.1 hi) p hp
    obtain ⟨tt, hk'⟩ := h.tabKind j (List.mem_range.1 hj) p hq
    rw [hk] at hk'
    cases hk'
    exact hne rfl
  · have hpw : S.terminals.Pairwise (fun a b => ∀ p, a = some p → b ≠ some p) := by
      rw [List.pairwise_iff_getElem]
      intro i j hi hj hij p e e'
      have h1 := (h.termKind i p (by rw [List.getElem?_eq_getElem hi, e])).1
      have h2 := (h.termKind j p (by rw [List.getElem?_eq_getElem hj, e'])).1
      rw [h1] at h2
      have := Kind.leaf.inj h2
      omega
    generalize S.terminals = l at hpw
    induction hpw with
    | nil => simp
    | @cons a l ha _ ih =>
        cases a with
        | none => simpa using ih
        | some a =>
            simp only [List.filterMap_cons, id]
            refine List.nodup_cons.2 ⟨?_, ih⟩
            intro hm
            rw [List.mem_filterMap] at hm
            obtain ⟨o, ho, e⟩ := hm
            exact ha o ho a rfl e
  · rintro p hp q hq rfl
    obtain ⟨i, hi, hp⟩ := List.mem_flatMap.1 hp
    obtain ⟨ss, hk⟩ := h.tabKind i (List.mem_range.1 hi) p hp
    obtain ⟨o, ho, e⟩ := List.mem_filterMap.1 hq
    obtain ⟨v, hv⟩ := List.getElem?_of_mem ho
    obtain ⟨hk', _⟩ := h.termKind v p (by rw [hv]; exact congrArg some e)
    rw [hk] at hk'
    cases hk'

theorem toDotAll_ok (h : Inv c ext [] S) (binary : Bool) :
    toDotAll c binary S = .ok ((dotOf c S binary (nodeList c S)).text, S) := by
  unfold toDotAll
  have hf : forEachNode c (dotVisit c binary) (dotEmpty c) S = .ok (dotOf c S binary (nodeList c S), S) := by
    unfold forEachNode
    rw [bind_ok (a := S) (s' := S) rfl, ← dotOf_nil (S := S) (binary := binary),
      bind_ok (dotVisit_tables h _ _ fun i hi => List.mem_range.1 hi), List.nil_append]
    refine Eq.trans ?_ (dotVisit_all (l := S.terminals.filterMap id) (fun q hq => ?_) _)
    · refine Eq.trans ?_ (congrFun (foldL_somes (f := dotVisit c binary) S.terminals _) S)
      congr 1
      funext o t
      cases o <;> rfl
    · obtain ⟨o, ho, e⟩ := List.mem_filterMap.1 hq
      cases e
      exact (h.placed q).2 (Or.inr (Or.inr (Or.inl ho)))
  rw [bind_run, hf]
  rfl

/-- The number of arcs to a node. -/
theorem arcs_count (hinj : Function.Injective c.addr) (p : Ptr) :
    (dotOf c S binary vs).arcs.countP (fun a => a.2.1 == c.addr p) =
      (vs.map fun q => (S.sonsOf q).count p).sum := by
  simp only [dotOf, List.countP_flatMap]
  congr 1
  refine List.map_congr_left ?_
  intro q _
  simp only [Function.comp, arcsOf, List.countP_map]
  generalize S.sonsOf q = l
  rw [List.count, show l = (l.zip (List.range l.length)).map Prod.fst from
    (List.map_fst_zip (by simp)).symm, List.countP_map]
  rw [← show l = (l.zip (List.range l.length)).map Prod.fst from (List.map_fst_zip (by simp)).symm]
  refine List.countP_congr ?_
  intro e _
  simp only [Function.comp, beq_iff_eq]
  exact ⟨fun h => hinj h, fun h => by rw [h]⟩

/-- A tooltip is the number of arcs to the node and of diagrams with this root. -/
theorem tip_eq (h : Inv c ext [] S) (hinj : Function.Injective c.addr) {p : Ptr} (hp : S.used p = true) :
    S.refs p = (dotOf c S binary (nodeList c S)).arcs.countP (fun a => a.2.1 == c.addr p) + ext p := by
  rw [h.refs p hp, arcs_count hinj, Nat.add_comm]
  congr 1
  unfold Mgr.inDeg
  rw [← List.sum_toFinset _ (nodeList_nodup h), ← Finset.sum_filter]
  symm
  refine Finset.sum_subset ?_ ?_
  · intro q hq
    rw [List.mem_toFinset, mem_nodeList h] at hq
    simp only [Finset.mem_filter, Finset.mem_range]
    exact ⟨h.pool.usedLt q hq.1, hq.1⟩
  · intro q hq hn
    simp only [Finset.mem_filter, Finset.mem_range] at hq
    rw [List.mem_toFinset, mem_nodeList h] at hn
    have : S.kind q = .leaf Undefined := by
      by_contra hne
      exact hn ⟨hq.2, hne⟩
    rw [sonsOf_leaf this]
    simp

/-- The number of used nodes. -/
theorem nodeCount_card (h : Inv c ext [] S) :
    S.nodeCount = ((Finset.range S.next).filter fun p => S.used p = true).card := by
  have e : ((Finset.range S.next).filter fun p => ¬ S.used p = true) = S.free.toFinset := by
    ext p
    simp only [Finset.mem_filter, Finset.mem_range, List.mem_toFinset, Bool.not_eq_true]
    exact ⟨fun ⟨h1, h2⟩ => h.pool.allFree p h1 h2, fun hp => h.pool.freeUnused p hp⟩
  have h1 := Finset.card_filter_add_card_filter_not (s := Finset.range S.next) (fun p => S.used p = true)
  rw [e, List.toFinset_card_of_nodup h.pool.freeNodup, Finset.card_range] at h1
  exact Nat.add_right_cancel (h.pool.count.trans h1.symm)

/-- All nodes but the special terminal are listed. -/
theorem nodeList_length (h : Inv c ext [] S) :
    S.nodeCount = (nodeList c S).length + if S.special.isSome then 1 else 0 := by
  rw [nodeCount_card h, ← List.toFinset_card_of_nodup (nodeList_nodup h)]
  cases hs : S.special with
  | none =>
      simp only [Option.isSome_none, Bool.false_eq_true, if_false, Nat.add_zero]
      congr 1
      ext p
      simp only [Finset.mem_filter, Finset.mem_range, List.mem_toFinset, mem_nodeList h]
      refine ⟨fun ⟨_, hu⟩ => ⟨hu, ?_⟩, fun ⟨hu, _⟩ => ⟨h.pool.usedLt p hu, hu⟩⟩
      intro hk
      rcases (h.placed p).1 hu with ⟨i, hi, hp⟩ | hp | hp | hp
      · obtain ⟨ss, hk'⟩ := h.tabKind i hi p hp
        rw [hk] at hk'; cases hk'
      · simp at hp
      · obtain ⟨v, hv⟩ := List.getElem?_of_mem hp
        obtain ⟨hk', hne⟩ := h.termKind v p hv
        rw [hk] at hk'
        exact hne (Kind.leaf.inj hk').symm
      · rw [hs] at hp; cases hp
  | some q =>
      simp only [Option.isSome_some, if_true]
      have hq : q ∉ (nodeList c S).toFinset := by
        rw [List.mem_toFinset, mem_nodeList h]
        exact fun hh => hh.2 (h.specKind q hs)
      rw [← Finset.card_insert_of_notMem hq]
      congr 1
      ext p
      simp only [Finset.mem_filter, Finset.mem_range, List.mem_toFinset, mem_nodeList h, Finset.mem_insert]
      constructor
      · rintro ⟨_, hu⟩
        rcases (h.placed p).1 hu with ⟨i, hi, hp⟩ | hp | hp | hp
        · refine Or.inr ⟨hu, ?_⟩
          obtain ⟨ss, hk'⟩ := h.tabKind i hi p hp
          rw [hk']; simp
        · simp at hp
        · refine Or.inr ⟨hu, ?_⟩
          obtain ⟨v, hv⟩ := List.getElem?_of_mem hp
          obtain ⟨hk', hne⟩ := h.termKind v p hv
          rw [hk']
          intro e
          exact hne (Kind.leaf.inj e)
        · rw [hs] at hp; cases hp; exact Or.inl rfl
      · rintro (rfl | ⟨hu, _⟩)
        · exact ⟨h.pool.usedLt p (h.specUsed hs), h.specUsed hs⟩
        · exact ⟨h.pool.usedLt p hu, hu⟩

end

end Teddy
