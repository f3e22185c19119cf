import Verif.Proofs.Sim
import Verif.Proofs.Reorder
import Verif.Proofs.Always

/-! `reduce` after reordering: as long as no unique table is resized, the nodes it returns are determined
by their functions. -/

namespace Teddy

open SM

/-! ### What the unique tables may undergo -/

/-- Capacities do not shrink; a chain of a table that kept its capacity may have lost nodes. -/
def TabSub (s s' : Mgr) : Prop :=
  ∀ i, (s.tables i).cap ≤ (s'.tables i).cap ∧ ((s'.tables i).cap = (s.tables i).cap →
    ∀ b, ((s'.tables i).buckets b).Sublist ((s.tables i).buckets b))

theorem TabSub.refl (s : Mgr) : TabSub s s := fun _ => ⟨Nat.le_refl _, fun _ _ => List.Sublist.refl _⟩

theorem TabSub.of_eq {s s' : Mgr} (h : s'.tables = s.tables) : TabSub s s' := by
  intro i
  rw [h]
  exact TabSub.refl s i

theorem TabSub.trans (a b d : Mgr) (h1 : TabSub a b) (h2 : TabSub b d) : TabSub a d := by
  intro i
  refine ⟨(h1 i).1.trans (h2 i).1, fun e k => ?_⟩
  have := (h1 i).1
  have := (h2 i).1
  exact ((h2 i).2 (by omega) k).trans ((h1 i).2 (by omega) k)

/-- `m` leaves the tables and the contents of nodes as they are. -/
def SameTab (s s' : Mgr) : Prop := s'.tables = s.tables ∧ s'.kind = s.kind

theorem SameTab.refl (s : Mgr) : SameTab s s := ⟨rfl, rfl⟩
theorem SameTab.trans (a b d : Mgr) (h1 : SameTab a b) (h2 : SameTab b d) : SameTab a d :=
  ⟨h2.1.trans h1.1, h2.2.trans h1.2⟩

theorem setMarked_same (p : Ptr) : Always (setMarked p) SameTab :=
  afterChk (Always.modify fun _ => ⟨rfl, rfl⟩)
theorem setNotMarked_same (p : Ptr) : Always (setNotMarked p) SameTab :=
  afterChk (Always.modify fun _ => ⟨rfl, rfl⟩)
theorem incRef_same (p : Ptr) : Always (incRef p) SameTab :=
  afterChk (Always.modify fun _ => ⟨rfl, rfl⟩)

theorem decRef_same (p : Ptr) : Always (decRef p) SameTab := by
  refine afterChk ?_
  intro s b s' e
  rw [bind_run] at e
  simp only [get_run] at e
  split at e
  · cases e
  · cases e
    exact ⟨rfl, rfl⟩

theorem onLinks_same (f : Links → Except Err Links) : Always (onLinks f) SameTab := by
  intro s a s' e
  unfold onLinks at e
  rw [bind_run] at e
  simp only [get_run] at e
  cases h : f s.link with
  | error x => rw [h] at e; cases e
  | ok L =>
    rw [h] at e
    cases e
    exact ⟨rfl, rfl⟩

theorem SameTab.sub (s s' : Mgr) (h : SameTab s s') : TabSub s s' := TabSub.of_eq h.1

theorem eraseBucket_sub (i b : Nat) (p : Ptr) : Always (eraseBucket i b p) TabSub := by
  refine Always.bindGet fun s => Always.bind TabSub.trans ((onLinks_same _).mono SameTab.sub) fun _ =>
    Always.modify fun s => ?_
  intro j
  by_cases hj : j = i
  · subst hj
    simp only [upd_same]
    refine ⟨Nat.le_refl _, fun _ k => ?_⟩
    simp only [Table.remove, upd_apply]
    split
    · rename_i ek; subst ek; exact List.erase_sublist
    · exact List.Sublist.refl _
  · simp only [upd_other _ _ hj]
    exact ⟨Nat.le_refl _, fun _ _ => List.Sublist.refl _⟩

theorem deleteNode_sub (p : Ptr) : Always (deleteNode p) TabSub := by
  refine afterChk ?_
  intro s a s' e
  rw [bind_run] at e
  simp only [get_run] at e
  split at e
  · cases e
  · cases e
    exact TabSub.of_eq rfl

theorem collectNode_sub (i b : Nat) (p : Ptr) : Always (collectNode i b p) TabSub := by
  refine afterChk (Always.bindGet fun s => ?_)
  split
  · exact Always.bind TabSub.trans ((Always.forL SameTab.refl SameTab.trans decRef_same _).mono SameTab.sub)
      fun _ => Always.bind TabSub.trans (eraseBucket_sub i b p) fun _ => deleteNode_sub p
  · exact Always.pure TabSub.refl

theorem sweepChain_sub (i b : Nat) : ∀ f cur, Always (sweepChain i b f cur) TabSub
  | 0, _ => Always.throw
  | _ + 1, none => Always.pure TabSub.refl
  | f + 1, some p => Always.bindGet fun _ => Always.bind TabSub.trans (collectNode_sub i b p) fun _ =>
      sweepChain_sub i b f _

theorem collectGarbage_sub (c : Cfg) : Always (collectGarbage c) TabSub := by
  refine Always.bind TabSub.trans (Always.forL TabSub.refl TabSub.trans (fun level => ?_) _) fun _ =>
    Always.bindGet fun s => Always.bind TabSub.trans
      (Always.forL TabSub.refl TabSub.trans (fun v => ?_) _) fun _ => ?_
  · refine Always.bindGet fun s => Always.bindGet fun s => ?_
    exact Always.forL TabSub.refl TabSub.trans (fun b => Always.bindGet fun s =>
      sweepChain_sub _ b _ _) _
  · refine Always.bindGet fun s => ?_
    split
    · refine afterChk ?_
      split
      · exact Always.bind TabSub.trans (deleteNode_sub _) fun _ => Always.modify fun _ => TabSub.of_eq rfl
      · exact Always.pure TabSub.refl
    · exact Always.pure TabSub.refl
  · refine Always.bindGet fun s => ?_
    split
    · refine afterChk ?_
      split
      · exact Always.bind TabSub.trans (deleteNode_sub _) fun _ => Always.modify fun _ => TabSub.of_eq rfl
      · exact Always.pure TabSub.refl
    · exact Always.pure TabSub.refl

theorem insertAll_cap (h : Ptr → Nat) : ∀ (l : List Ptr) (t : Table), (Table.insertAll h l t).cap = t.cap
  | [], _ => rfl
  | _ :: l, t => insertAll_cap h l (t.insertImpl _ _)

theorem nodeDtor_sub (p : Ptr) : Always (nodeDtor p) TabSub := by
  intro s a s' e
  unfold nodeDtor at e
  rw [bind_run] at e
  simp only [get_run] at e
  split at e
  · cases hk : s.kind p with
    | leaf v => rw [hk] at e; cases e; exact TabSub.of_eq rfl
    | inner i ss =>
        rw [hk] at e
        by_cases hl : s.mem.arr p ∈ s.mem.live
        · dsimp only at e
          rw [bind_ok (freeSons_run hl)] at e
          cases e; exact TabSub.of_eq rfl
        · simp [freeSons, bind_run, hl] at e
          cases e
  · cases e

theorem nodeCtor_sub (p : Ptr) (k : Kind) : Always (nodeCtor p k) TabSub := by
  intro s a s' e
  rw [nodeCtor_run] at e
  cases e; exact TabSub.of_eq rfl

theorem makeNew_sub (c : Cfg) (k : Kind) : Always (makeNew c k) TabSub := by
  have grow : Always (poolGrow c) TabSub := Always.modify fun _ => TabSub.of_eq rfl
  refine Always.bind TabSub.trans ?_ fun _ => Always.bind TabSub.trans ?_ fun _ =>
    Always.bind TabSub.trans (Always.modify fun _ => TabSub.of_eq rfl) fun _ => ?_
  · refine Always.bindGet fun s => ?_
    split
    · split
      · exact Always.bind TabSub.trans grow fun _ => Always.modify fun _ => TabSub.of_eq rfl
      · exact Always.pure TabSub.refl
    · split
      · refine Always.bind TabSub.trans (Always.bind TabSub.trans (collectGarbage_sub c) fun _ =>
          Always.modify fun _ => TabSub.of_eq rfl) fun _ => Always.bindGet fun s => ?_
        split
        · exact grow
        · exact Always.pure TabSub.refl
      · exact Always.pure TabSub.refl
  · refine Always.bindGet fun s => ?_
    split
    · refine Always.bind TabSub.trans (Always.bindGet fun s =>
        Always.bind TabSub.trans ((onLinks_same _).mono SameTab.sub) fun _ => Always.modify fun s i => ?_) fun _ =>
        Always.bind TabSub.trans (Always.modify fun _ => TabSub.of_eq rfl) fun _ =>
          Always.modify fun _ => TabSub.of_eq rfl
      dsimp only
      split
      · unfold Table.adjustCapacity
        dsimp only
        split
        · rename_i hgt
          have e : ∀ h, ((s.tables i).rehash h (gteCapacity ((s.tables i).size * 4 / 3))).cap =
              gteCapacity ((s.tables i).size * 4 / 3) := fun h => insertAll_cap _ _ _
          rw [e]
          exact ⟨by omega, fun h => by omega⟩
        · exact TabSub.refl s i
      · exact TabSub.refl s i
    · exact Always.pure TabSub.refl
  · intro s a s' e
    unfold poolCreate at e
    rw [bind_run] at e
    simp only [get_run] at e
    split at e
    · cases e
    · cases hf : s.free with
      | cons p rest =>
        rw [hf] at e
        dsimp only at e
        split at e
        · rw [bind_ok (set_run _ _)] at e
          have h := Always.bind TabSub.trans (nodeDtor_sub p) (fun _ => Always.bind TabSub.trans
            (nodeCtor_sub p k) fun _ => Always.pure (a := p) TabSub.refl) _ _ _ e
          exact TabSub.trans s _ _ (TabSub.of_eq rfl) h
        · cases e
      | nil =>
        rw [hf] at e
        dsimp only at e
        split at e
        · rw [bind_ok (set_run _ _)] at e
          have h := Always.bind TabSub.trans (nodeCtor_sub s.next k)
            (fun _ => Always.pure (a := s.next) TabSub.refl) _ _ _ e
          exact TabSub.trans s _ _ (TabSub.of_eq rfl) h
        · cases e

theorem makeTerminal_sub (c : Cfg) (v : Int) : Always (makeTerminal c v) TabSub := by
  refine Always.bind TabSub.trans ?_ fun _ => ?_
  · unfold assertTerminal
    split
    · split
      · exact Always.throw
      · exact Always.pure TabSub.refl
    · exact Always.pure TabSub.refl
  · split
    · refine Always.bindGet fun s => ?_
      split
      · exact Always.bind TabSub.trans ((setMarked_same _).mono SameTab.sub) fun _ => Always.pure TabSub.refl
      · exact Always.bind TabSub.trans (makeNew_sub c _) fun _ => Always.bind TabSub.trans
          (Always.modify fun _ => TabSub.of_eq rfl) fun _ => Always.bind TabSub.trans
          ((setMarked_same _).mono SameTab.sub) fun _ => Always.pure TabSub.refl
    · split
      · exact Always.throw
      · refine Always.bind TabSub.trans (Always.modify fun _ => TabSub.of_eq rfl) fun _ =>
          Always.bindGet fun s => ?_
        split
        · exact Always.bind TabSub.trans ((setMarked_same _).mono SameTab.sub) fun _ => Always.pure TabSub.refl
        · exact Always.bind TabSub.trans (makeNew_sub c _) fun _ => Always.bind TabSub.trans
            (Always.modify fun _ => TabSub.of_eq rfl) fun _ => Always.bind TabSub.trans
            ((setMarked_same _).mono SameTab.sub) fun _ => Always.pure TabSub.refl

/-- A call of `make_internal_node` that does not shortcut: the tables stay, or the new node is put at the
head of its chain. -/
theorem makeInternal_tables {c : Cfg} {ext : Ptr → Nat} {tmp : List Ptr} {i : Nat} {sons : List Ptr} {s s' : Mgr}
    {r : Ptr} (h : Inv c ext tmp s) (hi : i < c.n) (hred : isRedundant sons = false) (e : makeInternal c i sons s = .ok (r, s')) :
    ((s.tables i).find s.sonsOf (c.hash sons) sons = some r ∧ SameTab s s') ∨
    ((s.tables i).find s.sonsOf (c.hash sons) sons = none ∧ ∃ s1, TabSub s s1 ∧
      s'.tables = upd s1.tables i ((s1.tables i).insert r (c.hash sons))) := by
  unfold makeInternal at e
  rw [if_neg (by rw [hred]; decide), bind_run] at e
  simp only [get_run] at e
  rw [bind_ok (tableFind_run h hi)] at e
  cases hf : (s.tables i).find s.sonsOf (c.hash sons) sons with
  | some q =>
      rw [hf] at e
      dsimp only at e
      rw [tempSons_bind] at e
      have h2 := Always.bind SameTab.trans (Always.forL SameTab.refl SameTab.trans setNotMarked_same
        (s.sonsOf q)) (fun _ => Always.bind SameTab.trans (setMarked_same q) fun _ =>
          Always.pure (a := q) SameTab.refl) s r s' e
      have hr : r = q := by
        rw [bind_run] at e
        split at e
        · rw [bind_run] at e
          split at e
          · cases e; rfl
          · cases e
        · cases e
      subst hr
      exact Or.inl ⟨rfl, h2⟩
  | none =>
      rw [hf] at e
      refine Or.inr ⟨rfl, ?_⟩
      dsimp only at e
      rw [bind_run] at e
      split at e
      · rename_i p s1 e1
        rw [bind_run] at e
        simp only [tableInsert, modify_run] at e
        have h2 := Always.bind SameTab.trans (Always.forL SameTab.refl SameTab.trans incRef_same sons)
          (fun _ => Always.bind SameTab.trans (Always.forL SameTab.refl SameTab.trans setNotMarked_same
            sons) fun _ => Always.bind SameTab.trans (setMarked_same p) fun _ =>
              Always.pure (a := p) SameTab.refl) _ r s' e
        have hr : r = p := by
          rw [bind_run] at e
          split at e
          · rw [bind_run] at e
            split at e
            · rw [bind_run] at e
              split at e
              · cases e; rfl
              · cases e
            · cases e
          · cases e
        subst hr
        exact ⟨s1, makeNew_sub c _ s r s1 e1, h2.1⟩
      · cases e

/-! ### The first node of its chain with given sons -/

theorem find?_sublist {α : Type} {P P' : α → Bool} {l' l : List α} (hs : l'.Sublist l) (hn : l.Nodup)
    {p : α} (hf : l.find? P = some p) (hp : p ∈ l') (hP : P' p = true)
    (imp : ∀ q ∈ l', P' q = true → P q = true) : l'.find? P' = some p := by
  induction hs with
  | slnil => cases hp
  | @cons l1 l2 a hs ih =>
      rw [List.nodup_cons] at hn
      cases hPa : P a with
      | true =>
          rw [List.find?_cons_of_pos hPa] at hf
          cases hf
          exact absurd (hs.subset hp) hn.1
      | false =>
          rw [List.find?_cons_of_neg (by rw [hPa]; decide)] at hf
          exact ih hn.2 hf hp imp
  | @cons_cons l1 l2 a hs ih =>
      rw [List.nodup_cons] at hn
      by_cases hap : a = p
      · subst hap
        rw [List.find?_cons_of_pos hP]
      · have hPa : P a = false := by
          cases hPa : P a with
          | false => rfl
          | true =>
              rw [List.find?_cons_of_pos hPa] at hf
              cases hf
              exact absurd rfl hap
        rw [List.find?_cons_of_neg (by rw [hPa]; decide)] at hf
        have hPa' : ¬ P' a = true := fun h => by
          rw [imp a (by simp) h] at hPa; cases hPa
        rw [List.find?_cons_of_neg hPa']
        rcases List.mem_cons.1 hp with rfl | hp
        · exact absurd rfl hap
        · exact ih hn.2 hf hp (fun q hq => imp q (by simp [hq]))

/-- A lookup with the sons of `p` finds `p`. -/
def First (c : Cfg) (s : Mgr) (i : Nat) (p : Ptr) : Prop :=
  (s.tables i).find s.sonsOf (c.hash (s.sonsOf p)) (s.sonsOf p) = some p

/-- Capacities only grow; if they stay, protected nodes remain the first of their chains. -/
structure FirstK (c : Cfg) (ext : Ptr → Nat) (s s' : Mgr) : Prop where
  cap : ∀ i, (s.tables i).cap ≤ (s'.tables i).cap
  first : (∀ i, i < c.n → (s'.tables i).cap = (s.tables i).cap) → ∀ i, i < c.n → ∀ p,
    Prot ext [] s p → First c s i p → First c s' i p

section
variable {c : Cfg} {ext : Ptr → Nat} {s s' : Mgr}

theorem FirstK.of_same (h : SameTab s s') : FirstK c ext s s' := by
  obtain ⟨ht, hk⟩ := h
  have hso : s'.sonsOf = s.sonsOf := by
    funext p
    simp only [Mgr.sonsOf, hk]
  refine ⟨fun i => by rw [ht], fun _ i _ p _ hf => ?_⟩
  unfold First
  rw [ht, hso]
  exact hf

theorem FirstK.refl (s : Mgr) : FirstK c ext s s := FirstK.of_same (SameTab.refl s)

theorem FirstK.trans {s1 s2 s3 : Mgr} (k : Keeps ext [] s1 s2) (a : FirstK c ext s1 s2)
    (b : FirstK c ext s2 s3) : FirstK c ext s1 s3 := by
  refine ⟨fun i => (a.cap i).trans (b.cap i), fun h i hi p hp hf => ?_⟩
  refine b.first (fun i hi => ?_) i hi p (k.prot p hp) (a.first (fun i hi => ?_) i hi p hp hf) <;>
  · have := a.cap i
    have := b.cap i
    have := h i hi
    omega

theorem sonsOf_eq {p : Ptr} (h : s'.kind p = s.kind p) : s'.sonsOf p = s.sonsOf p := by
  simp only [Mgr.sonsOf, h]

/-- The chains lost nodes and possibly got `r` at the head of one of them. -/
theorem FirstK.of_sub {r : Ptr} {sons : List Ptr} (h : Inv c ext [] s) (m : Made c ext [] s sons r s')
    (hcap : ∀ i, (s.tables i).cap ≤ (s'.tables i).cap)
    (hch : ∀ i, i < c.n → (s'.tables i).cap = (s.tables i).cap → ∀ b, ∃ l, l.Sublist ((s.tables i).buckets b) ∧
      ((s'.tables i).buckets b = l ∨ (s'.tables i).buckets b = r :: l))
    (hr : ∀ i, i < c.n → ∀ p, First c s i p → r ∈ (s'.tables i).nodes → r ≠ p → s'.sonsOf r ≠ s.sonsOf p) :
    FirstK c ext s s' := by
  refine ⟨hcap, fun he i hi p hp hf => ?_⟩
  have w := h.tabWF i hi
  have w' := m.inv.tabWF i hi
  obtain ⟨hpn, -⟩ := Table.find_some w.cap_pos hf
  obtain ⟨ss, hk⟩ := h.tabKind i hi p hpn
  have hk' : s'.kind p = s.kind p := m.keeps.kind p hp
  have hso := sonsOf_eq hk'
  have hpn' : p ∈ (s'.tables i).nodes :=
    (m.inv.inTable ((m.keeps.prot p hp).used m.inv) (hk'.trans hk)).resolve_right (by simp)
  have hb := w'.toWFb.mem_nodes.1 hpn'
  have hcp := he i hi
  unfold First Table.find at hf ⊢
  rw [hso, hcp]
  simp only [Mgr.hashOf, hso, hcp] at hb
  have hlt : c.hash (s.sonsOf p) % (s.tables i).cap < (s.tables i).cap := Nat.mod_lt _ w.cap_pos
  generalize hB : c.hash (s.sonsOf p) % (s.tables i).cap = b at hf hb hlt ⊢
  obtain ⟨l, hl, hl'⟩ := hch i hi hcp b
  have inN : ∀ q, q ∈ (s'.tables i).buckets b → q ∈ (s'.tables i).nodes := fun q hq =>
    Table.mem_nodes_iff.2 ⟨b, by rw [hcp]; exact hlt, hq⟩
  have hf0 : First c s i p := by
    unfold First Table.find
    rw [hB]
    exact hf
  have imp : ∀ q ∈ (s'.tables i).buckets b, (s'.sonsOf q == s.sonsOf p) = true →
      (s.sonsOf q == s.sonsOf p) = true := by
    intro q hq he
    obtain ⟨U, -, hU2, hU3, -⟩ := m.mid
    rcases hU3 q (m.inv.tabUsed hi (inN q hq)) with hu | rfl
    · rw [← sonsOf_eq (hU2 q hu).2]; exact he
    · by_cases hqp : q = p
      · rw [hqp]; simp
      · exact absurd (by simpa using he) (hr i hi p hf0 (inN q hq) hqp)
  rcases hl' with hl' | hl'
  · rw [hl'] at hb imp ⊢
    exact find?_sublist hl (w.nodup b hlt) hf hb (by simp [hso]) imp
  · have hmem := inN r (by rw [hl']; simp)
    by_cases hrp : r = p
    · subst hrp
      rw [hl', List.find?_cons_of_pos (by simp [hso])]
    · have hne := hr i hi p hf0 hmem hrp
      rw [hl'] at hb imp ⊢
      rw [List.find?_cons_of_neg (by simpa using hne)]
      refine find?_sublist hl (w.nodup b hlt) hf ?_ (by simp [hso]) (fun q hq => imp q (by simp [hq]))
      rcases List.mem_cons.1 hb with h1 | h1
      · exact absurd h1.symm hrp
      · exact h1

theorem makeTerminal_firstK (h : Inv c ext [] s) {v : Int} {r : Ptr} {sons : List Ptr}
    (m : Made c ext [] s sons r s') (hk : s'.kind r = .leaf v) (e : makeTerminal c v s = .ok (r, s')) :
    FirstK c ext s s' := by
  have ht := makeTerminal_sub c v s r s' e
  refine FirstK.of_sub h m (fun i => (ht i).1) (fun i _ hc b => ⟨_, (ht i).2 hc b, Or.inl rfl⟩) ?_
  intro i hi p _ hr
  obtain ⟨ss, hk2⟩ := m.inv.tabKind i hi r hr
  rw [hk] at hk2
  cases hk2

theorem makeInternal_firstK (h : Inv c ext [] s) {i : Nat} {r : Ptr} {sons : List Ptr} (hi : i < c.n)
    (m : Made c ext [] s sons r s') (hres : InternalRes s i sons r s')
    (e : makeInternal c i sons s = .ok (r, s')) :
    FirstK c ext s s' ∧ (isRedundant sons = false → First c s' i r) := by
  rcases hres with ⟨h1, rfl, -, -⟩ | ⟨hred, hk, -⟩
  · exact ⟨FirstK.refl _, fun h2 => by rw [h1] at h2; cases h2⟩
  have hso : s'.sonsOf r = sons := by simp [Mgr.sonsOf, hk]
  rcases makeInternal_tables h hi hred e with ⟨hf, hs⟩ | ⟨hf, s1, hsub, ht⟩
  · refine ⟨FirstK.of_same hs, fun _ => ?_⟩
    have : s'.sonsOf = s.sonsOf := by
      funext p
      exact sonsOf_eq (by rw [hs.2])
    unfold First
    rw [hso, hs.1, this]
    exact hf
  · have tj : ∀ j, j ≠ i → s'.tables j = s1.tables j := fun j hj => by rw [ht, upd_other _ _ hj]
    have ti : s'.tables i = (s1.tables i).insert r (c.hash sons) := by rw [ht, upd_same]
    have capE : ∀ j, (s'.tables j).cap = (s1.tables j).cap := by
      intro j
      by_cases hj : j = i
      · subst hj; rw [ti]; rfl
      · rw [tj j hj]
    refine ⟨FirstK.of_sub h m (fun j => by rw [capE]; exact (hsub j).1) ?_ ?_, fun _ => ?_⟩
    · intro j _ hc b
      rw [capE] at hc
      refine ⟨_, (hsub j).2 hc b, ?_⟩
      by_cases hj : j = i
      · subst hj
        rw [ti]
        show upd _ _ _ b = _ ∨ upd _ _ _ b = _
        simp only [upd_apply]
        split
        · rename_i eb; subst eb; exact Or.inr rfl
        · exact Or.inl rfl
      · rw [tj j hj]; exact Or.inl rfl
    · intro j hj p hfp hrn _ hcon
      obtain ⟨ss, hk2⟩ := m.inv.tabKind j hj r hrn
      rw [hk] at hk2
      cases hk2
      unfold First at hfp
      rw [← hcon, hso, hf] at hfp
      cases hfp
    · unfold First Table.find
      rw [hso, ti]
      show List.find? _ (upd _ _ _ _) = _
      rw [show ((s1.tables i).insert r (c.hash sons)).cap = (s1.tables i).cap from rfl, upd_same,
        List.find?_cons_of_pos (by simp [hso])]

/-! ### Selected nodes -/

/-- Below `p`, a lookup finds every node and no node is redundant. -/
inductive Sel (c : Cfg) (s : Mgr) : Ptr → Prop
  | leaf {p : Ptr} {v : Int} : s.kind p = .leaf v → Sel c s p
  | inner {p : Ptr} {i : Nat} {ss : List Ptr} : s.kind p = .inner i ss → i < c.n → First c s i p →
      isRedundant ss = false → (∀ q ∈ ss, Sel c s q) → Sel c s p

theorem Sel.keeps (k : Keeps ext [] s s') (f : FirstK c ext s s')
    (hc : ∀ i, i < c.n → (s'.tables i).cap = (s.tables i).cap) {p : Ptr} (h : Sel c s p)
    (hp : Prot ext [] s p) : Sel c s' p := by
  induction h with
  | leaf hk => exact .leaf (by rw [k.kind _ hp]; exact hk)
  | inner hk hi hf hr _ ih =>
      exact .inner (by rw [k.kind _ hp]; exact hk) hi (f.first hc _ hi _ hp hf) hr
        (fun q hq => ih q hq (.son hp hk hq))

/-- Selected nodes with the same function are the same node. -/
theorem sel_unique (h : Inv c ext [] s) (ho : Ordered c s) (hc : CfgOK c) {p q : Ptr}
    (hp : s.used p = true) (hq : s.used q = true) (sp : Sel c s p) (sq : Sel c s q)
    (hpq : SameFun c s p q) : p = q := by
  refine canonicalOn (Sel c s) h ho hc ?_ ?_ ?_ hp hq sp sq hpq
  · intro p i ss hs hk
    cases hs with
    | leaf hk' => rw [hk'] at hk; cases hk
    | inner hk' _ _ _ h5 => rw [hk'] at hk; cases hk; exact h5
  · intro p i ss hs hk
    cases hs with
    | leaf hk' => rw [hk'] at hk; cases hk
    | inner hk' _ _ h4 _ => rw [hk'] at hk; cases hk; exact h4
  · intro p q i ss _ _ hs hs' hk hk'
    cases hs with
    | leaf h1 => rw [h1] at hk; cases hk
    | inner h1 _ h3 _ _ =>
        rw [h1] at hk; cases hk
        cases hs' with
        | leaf h1' => rw [h1'] at hk'; cases hk'
        | inner h1' _ h3' _ _ =>
            rw [h1'] at hk'; cases hk'
            unfold First at h3 h3'
            rw [show s.sonsOf p = s.sonsOf q from by simp [Mgr.sonsOf, h1, h1']] at h3
            rw [h3] at h3'
            exact Option.some.inj h3'

end

/-! ### `reduce` returns selected nodes -/

section
variable {E : Env} {ext : Ptr → Nat} {s : Mgr}

/-- Nothing was resized between `s0` and `s`. -/
def SameCap (c : Cfg) (s0 s : Mgr) : Prop := ∀ i, i < c.n → (s.tables i).cap = (s0.tables i).cap

theorem SameCap.split {s0 s1 s2 : Mgr} (f1 : FirstK E.c ext s0 s1) (f2 : FirstK E.c ext s1 s2)
    (h : SameCap E.c s0 s2) : SameCap E.c s0 s1 ∧ SameCap E.c s1 s2 := by
  constructor <;> intro i hi <;>
  · have := f1.cap i
    have := f2.cap i
    have := h i hi
    omega

/-- The node is selected unless a table was resized since `s0`. -/
def SelSince (c : Cfg) (s0 s : Mgr) (r : Ptr) : Prop := SameCap c s0 s → Sel c s r

theorem SelSince.keeps {s0 s' : Mgr} {r : Ptr} (f0 : FirstK E.c ext s0 s) (k : Keeps ext [] s s')
    (f : FirstK E.c ext s s') (hp : Prot ext [] s r) (h : SelSince E.c s0 s r) :
    SelSince E.c s0 s' r := by
  intro hc
  obtain ⟨h1, h2⟩ := SameCap.split f0 f hc
  exact (h h1).keeps k f h2 hp

/-- What the recursion knows of its memo. -/
def MemoSel (E : Env) (ext : Ptr → Nat) (s0 : Mgr) (φ : Ptr → Asg → Int → Prop) (m : Memo) (s : Mgr) :
    Prop :=
  MemoOK E ext (s0.levelOf E.c) φ m s ∧ ∀ p r, m p = some r → SelSince E.c s0 s r

theorem MemoSel.keeps {s0 s' : Mgr} {φ : Ptr → Asg → Int → Prop} {m : Memo}
    (h : MemoSel E ext s0 φ m s) (f0 : FirstK E.c ext s0 s) (k : Keeps ext [] s s')
    (f : FirstK E.c ext s s') : MemoSel E ext s0 φ m s' :=
  ⟨h.1.keeps k, fun p r hr => (h.2 p r hr).keeps f0 k f (h.1 p r hr).1⟩

/-- A step after which the result is selected. -/
structure SelStep (E : Env) (ext : Ptr → Nat) (s0 s : Mgr) (L : Nat) (φ : Asg → Int → Prop) (r : Ptr)
    (s' : Mgr) : Prop where
  step : Step E ext s r s'
  first : FirstK E.c ext s s'
  rep : Rep E.c s' L r φ
  sel : SelSince E.c s0 s' r

theorem mapAccL_sel {s0 : Mgr} {L : Ptr → Nat} {φ : Ptr → Asg → Int → Prop}
    {F : Ptr → Memo → M (Ptr × Memo)} {ψ : Ptr → Asg → Int → Prop} (l : List Ptr)
    (hF : ∀ q ∈ l, ∀ m s, Good E ext s → Keeps ext [] s0 s → FirstK E.c ext s0 s →
      MemoSel E ext s0 ψ m s → Ok (F q m) s (fun r s' =>
        SelStep E ext s0 s (L q) (φ q) r.1 s' ∧ MemoSel E ext s0 ψ r.2 s')) :
    ∀ m s, Good E ext s → Keeps ext [] s0 s → FirstK E.c ext s0 s → MemoSel E ext s0 ψ m s →
      Ok (mapAccL F l m) s (fun r s' => Good E ext s' ∧ Keeps ext [] s s' ∧ FirstK E.c ext s s' ∧
        r.1.length = l.length ∧ (∀ q ∈ r.1, Prot ext [] s' q ∧ SelSince E.c s0 s' q) ∧
        (∀ (k : Nat) a q, l[k]? = some a → r.1[k]? = some q → Rep E.c s' (L a) q (φ a)) ∧
        (∀ p, s'.mark p = true → p ∈ r.1 ∨ s.mark p = true) ∧ MemoSel E ext s0 ψ r.2 s') := by
  induction l with
  | nil =>
      intro m s g _ _ hm
      exact Ok.pure ⟨g, Keeps.refl s, FirstK.refl s, rfl, by simp, by simp, fun p h => Or.inr h, hm⟩
  | cons a l ih =>
      intro m s g k0 f0 hm
      simp only [mapAccL]
      refine Ok.bind (hF a (by simp) m s g k0 f0 hm) ?_
      rintro ⟨r, m1⟩ s1 ⟨st, hm1⟩
      have k1 := k0.trans st.step.keeps
      have f1 := FirstK.trans k0 f0 st.first
      refine Ok.bind (ih (fun q hq => hF q (by simp [hq])) m1 s1 st.step.good k1 f1 hm1) ?_
      rintro ⟨rs, m2⟩ s2 ⟨g2, k2, f2, hl2, hp2, hr2, hm2, hmo2⟩
      refine Ok.pure ⟨g2, st.step.keeps.trans k2, FirstK.trans st.step.keeps st.first f2,
        by simpa using hl2, ?_, ?_, ?_, hmo2⟩
      · intro q hq
        rcases List.mem_cons.1 hq with rfl | hq
        · exact ⟨k2.prot _ st.step.prot, st.sel.keeps f1 k2 f2 st.step.prot⟩
        · exact hp2 q hq
      · intro k b q hb hq
        cases k with
        | zero =>
            simp only [List.getElem?_cons_zero, Option.some.injEq] at hb hq
            subst hb; subst hq
            exact st.rep.keeps k2 st.step.prot
        | succ k =>
            simp only [List.getElem?_cons_succ] at hb hq
            exact hr2 k b q hb hq
      · intro p hp
        rcases hm2 p hp with h | h
        · exact Or.inl (by simp [h])
        · rcases st.step.mark p h with h | h
          · exact Or.inl (by simp [h])
          · exact Or.inr h

theorem transformImpl_sel {s0 : Mgr} (g0 : Good E ext s0) {t : Int → Int} :
    ∀ (f : Nat) (p : Ptr) (m : Memo) (s : Mgr), Good E ext s → Keeps ext [] s0 s →
      FirstK E.c ext s0 s → Prot ext [] s0 p → (∀ a, LeafVal s0.kind p a → TermOK E.c (t a)) →
      MemoSel E ext s0 (fun p x v => ∃ a, Ev s0.kind x p a ∧ v = t a) m s →
      E.c.n - s0.levelOf E.c p < f →
      Ok (transformImpl E.c t f p m) s (fun r s' =>
        SelStep E ext s0 s (s0.levelOf E.c p) (fun x v => ∃ a, Ev s0.kind x p a ∧ v = t a) r.1 s' ∧
        MemoSel E ext s0 (fun p x v => ∃ a, Ev s0.kind x p a ∧ v = t a) r.2 s') := by
  intro f
  induction f with
  | zero => intro p m s _ _ _ _ _ _ hf; omega
  | succ f ih =>
      intro p m s g k fk hp hT hm hf
      simp only [transformImpl]
      cases hmp : m p with
      | some r =>
          have := hm.1 p r hmp
          exact Ok.pure ⟨⟨Step.refl g this.1, FirstK.refl s, this.2, hm.2 p r hmp⟩, hm⟩
      | none =>
          have hps := k.prot _ hp
          refine Ok.bindEq (getKind_ok (hps.used g.inv)) ?_
          rw [k.kind p hp]
          cases hk : s0.kind p with
          | leaf v =>
              have tv := hT v ⟨p, .refl, hk⟩
              obtain ⟨r, s1, e, st, hkr, _⟩ := makeTerminal_good g tv
              obtain ⟨r', s1', e', m', _⟩ := makeTerminal_spec g.inv g.pool tv
              rw [e] at e'
              cases e'
              have f1 := makeTerminal_firstK g.inv m' hkr e
              refine Ok.bindEq e (Ok.pure ⟨⟨st, f1, ⟨by simp [Mgr.levelOf, hk, hkr], fun x _ => ?_⟩,
                fun _ => .leaf hkr⟩, hm.keeps fk st.keeps f1⟩)
              exact ⟨t v, ⟨v, .leaf hk, rfl⟩, .leaf hkr⟩
          | inner i ss =>
              obtain ⟨hi, hlen, hu⟩ := g0.inv.sons p i ss (hp.used g0.inv) hk
              refine Ok.bind (mapAccL_sel (L := s0.levelOf E.c) (φ := fun p x v =>
                ∃ a, Ev s0.kind x p a ∧ v = t a) ss ?_ m s g k fk hm) ?_
              · intro q hq m s g k fk hm
                have hlt := g0.ord p i ss q (hp.used g0.inv) hk hq
                have hle := levelOf_le g0.inv ((Prot.son hp hk hq).used g0.inv)
                exact ih q m s g k fk (.son hp hk hq) (fun a ha => hT a (ha.son hk hq)) hm (by omega)
              rintro ⟨sons', m1⟩ s1 ⟨g1, k1, f1, hl1, hp1, hr1, hm1, hmo1⟩
              have hlv : s1.idx2lvl i = s0.levelOf E.c p := by
                rw [k1.i2l, k.i2l]; simp [Mgr.levelOf, hk]
              have hlen' : sons'.length = E.c.dom i := by rw [← hlen]; exact hl1
              obtain ⟨r, s2, e, g2, k2, hp2, hm2, rep2, hres⟩ := makeInternal_good
                (φ := fun k x v => ∃ q, ss[k]? = some q ∧ ∃ a, Ev s0.kind x q a ∧ v = t a) g1 hi hlen'
                (fun q hq => (hp1 q hq).1) (by
                  intro k q hq
                  have hkl : k < ss.length := by
                    have : k < sons'.length := by
                      by_contra hc
                      rw [List.getElem?_eq_none (by omega)] at hq; cases hq
                    rw [← hl1]; exact this
                  have hget : ss[k]? = some ss[k] := List.getElem?_eq_getElem hkl
                  have hlt := g0.ord p i ss _ (hp.used g0.inv) hk (List.getElem_mem hkl)
                  refine (hr1 k ss[k] q hget hq).mono (by rw [hlv]; omega) ?_
                  intro x v _ h
                  exact ⟨ss[k], hget, h⟩)
              obtain ⟨r', s2', e', md, _⟩ := makeInternal_spec g1.inv g1.pool hi hlen'
                (g1.cfg.dom_pos i hi) (fun q hq => (hp1 q hq).1)
              rw [e] at e'
              cases e'
              obtain ⟨f2, hfirst⟩ := makeInternal_firstK g1.inv hi md hres e
              have f01 := FirstK.trans k fk f1
              have sel : SelSince E.c s0 s2 r := by
                intro hc
                obtain ⟨c1, c2⟩ := SameCap.split f01 f2 hc
                rcases hres with ⟨_, rfl, hr, _⟩ | ⟨hred, hkr, _⟩
                · exact (hp1 r hr).2 hc
                · exact .inner hkr hi (hfirst hred) hred (fun q hq =>
                    ((hp1 q hq).2 c1).keeps k2 f2 c2 (hp1 q hq).1)
              rw [hlv] at rep2
              have rep : Rep E.c s2 (s0.levelOf E.c p) r (fun x v => ∃ a, Ev s0.kind x p a ∧ v = t a) := by
                refine rep2.mono (Nat.le_refl _) ?_
                rintro x v hx ⟨q, hq, a, ha, rfl⟩
                exact ⟨a, .inner hk hq ha, rfl⟩
              have hmo2 := hmo1.keeps f01 k2 f2
              refine Ok.bindEq e (Ok.pure ⟨⟨⟨g2, k1.trans k2, hp2, ?_⟩, FirstK.trans k1 f1 f2, rep, sel⟩,
                hmo2.1.put hp2 rep, ?_⟩)
              · intro q hq
                rcases hm2 q hq with h1 | ⟨h1, h2⟩
                · exact Or.inl h1
                · rcases hm1 q h1 with h3 | h3
                  · exact absurd h3 h2
                  · exact Or.inr h3
              · intro q z hz
                simp only [upd_apply] at hz
                split at hz
                · cases hz; exact sel
                · exact hmo2.2 q z hz

/-- `transform` returns a selected node unless it resized a table; nodes selected before stay so. -/
theorem transform_sel (hau : E.auto = false) (g : Good E ext s) {p : Ptr} (hp : Prot ext [] s p) {f : Asg → Int}
    (hf : Den E.c s p f) {t : Int → Int} (ht : ∀ a, Range E.c f a → TermOK E.c (t a)) :
    Ok (transform E.c t p) s (fun r s' => (∀ i, (s.tables i).cap ≤ (s'.tables i).cap) ∧
      (SameCap E.c s s' → Sel E.c s' r ∧ ∀ q, Prot ext [] s q → Sel E.c s q → Sel E.c s' q)) := by
  unfold transform
  refine Ok.bind (transformImpl_sel g (E.c.n + 1) p _ s g (Keeps.refl s) (FirstK.refl s) hp
    (fun a ha => ht a ((leafVal_iff g (hp.used g.inv) hf).1 ha))
    ⟨MemoOK.empty, fun _ _ h => (by cases h)⟩ (by omega)) ?_
  rintro ⟨r, m⟩ s1 ⟨st, _⟩
  refine Ok.bindEq (runDeferred_ok (st.step.good.defer hau) _) ?_
  obtain ⟨r', s2, e, rfl, _⟩ := mkDiagram_good st.step.good st.step.prot
  have same : SameTab s1 s2 := Always.bind SameTab.trans (incRef_same r') (fun _ =>
    Always.bind SameTab.trans (setNotMarked_same r') fun _ => Always.pure (a := r') SameTab.refl)
    s1 r' s2 e
  have eqSel : ∀ q, Sel E.c s1 q → Sel E.c s2 q := by
    intro q hq
    have fk : FirstK E.c (fun _ => 1) s1 s2 := FirstK.of_same same
    induction hq with
    | leaf hk => exact .leaf (by rw [same.2]; exact hk)
    | inner hk hi hf hr _ ih =>
        exact .inner (by rw [same.2]; exact hk) hi
          (fk.first (fun _ _ => by rw [same.1]) _ hi _ (.root (Or.inr (Or.inl Nat.one_pos))) hf) hr ih
  refine Ok.of_eq e ⟨fun i => by rw [same.1]; exact st.first.cap i, fun hc => ?_⟩
  have hc1 : SameCap E.c s s1 := fun i hi => by rw [← hc i hi, same.1]
  exact ⟨eqSel _ (st.sel hc1), fun q hq hs => eqSel q (hs.keeps st.step.keeps st.first hc1 hq)⟩

end

section
variable {P : Setup} {σ : SState} {w : World}

/-- `reduce` as a call: the new handle is selected unless a table was resized. -/
theorem reduce_call (R : Rel P σ w) (hau : σ.auto = false) {a : Nat} (hk : Adm P σ (.reduce a)) :
    ∃ r w', exec P.c (.reduce a) w = .ok (.slot w.slots.length, w') ∧ w'.slots = w.slots ++ [some r] ∧
      Rel P { σ with slots := σ.slots ++ [some (σ.fn a)] } w' ∧
      (∀ i, (w.mgr.tables i).cap ≤ (w'.mgr.tables i).cap) ∧
      (SameCap P.c w.mgr w'.mgr → Sel P.c w'.mgr r ∧
        ∀ (k : Nat) q, w.slots[k]? = some (some q) → Sel P.c w.mgr q → Sel P.c w'.mgr q) := by
  obtain ⟨f, hf, ht⟩ := id hk
  obtain ⟨p, hp, hd⟩ := R.has a f hf
  obtain ⟨r, s', e, hcap, hsel⟩ := transform_sel (E := envOf P σ) (t := fun v => v) hau R.good (handle_prot (extL_pos hp)) hd ht
  obtain ⟨o, w', e', ho, R'⟩ := sim (k := .reduce a) R hk
  have e2 : exec P.c (.reduce a) w =
      .ok (.slot w.slots.length, { w with mgr := s', slots := w.slots ++ [some r] }) := by
    simp only [exec]
    rw [bind_ok (rootOf_ok hp)]
    unfold making
    rw [bind_ok (a := r) (s' := { w with mgr := s' }) (by
      simp only [onMgr]
      rw [show reduce P.c p w.mgr = _ from e])]
    rfl
  rw [e2] at e'
  cases e'
  exact ⟨r, _, e2, rfl, R', hcap, fun hc => ⟨(hsel hc).1, fun k q hq =>
    (hsel hc).2 q (handle_prot (extL_pos hq))⟩⟩

end

end Teddy
