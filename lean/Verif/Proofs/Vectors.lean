import Verif.Proofs.Queries

/-! `to_vector` and `from_vector`. -/

namespace Teddy

open SM Spec

section
variable {E : Env} {c : Cfg} {ext : Ptr → Nat} {tmp : List Ptr} {S s : Mgr} {root : Ptr}

/-! ### to_vector -/

/-- What `to_vector_g` does after the odometer was advanced. -/
def vecCont (c : Cfg) (root : Ptr) (f : Nat) (o : Asg × Bool) (out : List Int) : M (List Int) :=
  if o.2 then pure out else toVectorLoop c root f o.1 out

/-- Values of `root` for all assignments of the variables from level `l` on, the others as in `x`. -/
noncomputable def blockVals (c : Cfg) (S : Mgr) (root : Ptr) (l : Nat) (x : Asg) : List Int :=
  (assignments c.dom (varsFrom c S l)).map fun y => valOf S (merge S l x y) root

theorem blockVals_length {l : Nat} {x : Asg} :
    (blockVals c S root l x).length = prodBetween c S l c.n := by
  unfold blockVals
  rw [List.length_map, length_assignments, prodBetween_eq_domProd]

theorem valOf_congr (h : Inv c ext tmp S) (ho : Ordered c S) {p : Ptr} (hp : S.used p = true)
    {x y : Asg} (hx : Valid c x) (hxy : ∀ j, j < c.n → x j = y j) : valOf S y p = valOf S x p := by
  have he := ev_valOf h ho hx hp
  have : ∀ q v, S.used q = true → Ev S.kind x q v → Ev S.kind y q v := by
    intro q v hq hv
    induction hv with
    | leaf hk => exact .leaf hk
    | inner hk hr _ ih =>
        obtain ⟨hi, _, hus⟩ := h.sons _ _ _ hq hk
        exact .inner hk (by rw [← hxy _ hi]; exact hr) (ih (hus _ (List.mem_of_getElem? hr)))
  exact valOf_eq (this p _ hp he)

theorem blockVals_cons (h : Inv c ext tmp S) (ho : Ordered c S) (hc : CfgOK c)
    (hp : S.used root = true) {l : Nat} (hl : l < c.n) {x : Asg} (hx : Valid c x) :
    blockVals c S root l x = (List.range (c.dom (S.lvl2idx l))).flatMap fun k =>
      blockVals c S root (l + 1) (upd x (S.lvl2idx l) k) := by
  have hn := nodup_varsFrom h.order (l := l)
  unfold blockVals
  rw [varsFrom_cons hl] at hn ⊢
  obtain ⟨hni, hn⟩ := List.nodup_cons.1 hn
  simp only [assignments]
  rw [List.map_flatMap]
  refine List.flatMap_congr ?_
  intro k hk
  have hkd := List.mem_range.1 hk
  rw [List.map_map]
  refine List.map_congr_left ?_
  intro y hy
  obtain ⟨h1, h2⟩ := (mem_assignments hn).1 hy
  have hy' := valid_of_vars hc h1 h2
  simp only [Function.comp]
  refine valOf_congr h ho hp ?_ ?_
  · intro j hj
    simp only [merge]
    split
    · exact valid_upd hx (fun _ => hkd) j hj
    · exact hy' j hj
  · intro j hjn
    have hlj : S.idx2lvl j = l ↔ j = S.lvl2idx l := by
      constructor
      · rintro rfl; exact (h.order.i2l2i j hjn).symm
      · rintro rfl; exact h.order.l2i2l l hl
    simp only [merge, upd_apply]
    by_cases h1 : j = S.lvl2idx l
    · have := hlj.2 h1
      rw [if_pos (by omega), if_pos h1, if_neg (by omega), if_pos h1]
    · have : S.idx2lvl j ≠ l := fun e => h1 (hlj.1 e)
      rw [if_neg h1, if_neg h1]
      by_cases h2 : S.idx2lvl j < l
      · rw [if_pos h2, if_pos (by omega)]
      · rw [if_neg h2, if_neg (by omega)]

theorem toVectorLoop_block (h : Inv c ext tmp S) (ho : Ordered c S) (hc : CfgOK c)
    (hp : S.used root = true) :
    ∀ (d l : Nat), l + d = c.n → ∀ (f : Nat) (x : Asg) (out : List Int), Valid c x →
      (∀ j, j < c.n → l ≤ S.idx2lvl j → x j = 0) →
      toVectorLoop c root (f + prodBetween c S l c.n) x out S
        = vecCont c root f (odometer c S l x) (out ++ blockVals c S root l x) S := by
  intro d
  induction d with
  | zero =>
      intro l hl f x out hx hz
      have hl : l = c.n := by omega
      subst hl
      rw [prodBetween_self]
      simp only [toVectorLoop]
      rw [bind_ok (evaluate_ok h ho hp (ev_valOf h ho hx hp)), bind_ok (s' := S) (a := S) rfl]
      have hb : blockVals c S root c.n x = [valOf S x root] := by
        unfold blockVals
        rw [varsFrom_end]
        simp only [assignments, List.map_cons, List.map_nil]
        congr 1
        refine valOf_congr h ho hp hx ?_
        intro j hj
        simp only [merge]
        rw [if_pos (h.order.i2l_lt j hj)]
      rw [hb]
      unfold vecCont
      rfl
  | succ d ih =>
      intro l hl f x out hx hz
      have hln : l < c.n := by omega
      have hi := h.order.l2i_lt l hln
      have hil := h.order.l2i2l l hln
      have hxi : x (S.lvl2idx l) = 0 := hz _ hi (by omega)
      rw [prodBetween_cons hln, blockVals_cons h ho hc hp hln hx]
      generalize hidef : S.lvl2idx l = i at *
      have hdpos := hc.dom_pos i hi
      -- blocks `k, k+1, …`
      have loop : ∀ (m k : Nat) (out : List Int), k + (m + 1) = c.dom i →
          toVectorLoop c root (f + (m + 1) * prodBetween c S (l + 1) c.n) (upd x i k) out S
          = vecCont c root f (odometer c S l x) (out ++ (List.range' k (m + 1)).flatMap fun k =>
              blockVals c S root (l + 1) (upd x i k)) S := by
        intro m
        induction m with
        | zero =>
            intro k out hk
            rw [Nat.zero_add, Nat.one_mul, ih (l + 1) (by omega) f (upd x i k) out
              (valid_upd hx (fun _ => by omega)) ?_]
            · have : odometer c S (l + 1) (upd x i k) = odometer c S l x := by
                simp only [odometer, hidef, upd_same]
                rw [if_pos (by omega), upd_upd]
                congr 1
                rw [← hxi, upd_eta]
              rw [this]
              simp
            · intro j hj hjl
              have hne : j ≠ i := by rintro rfl; omega
              rw [upd_other _ _ hne]
              exact hz j hj (by omega)
        | succ m ihm =>
            intro k out hk
            have e1 : f + (m + 1 + 1) * prodBetween c S (l + 1) c.n
                = (f + (m + 1) * prodBetween c S (l + 1) c.n) + prodBetween c S (l + 1) c.n := by
              ring
            rw [e1, ih (l + 1) (by omega) _ (upd x i k) out
              (valid_upd hx (fun _ => by omega)) ?_]
            · have : odometer c S (l + 1) (upd x i k) = (upd x i (k + 1), false) := by
                simp only [odometer, hidef, upd_same]
                rw [if_neg (by omega), upd_upd]
              rw [this]
              unfold vecCont
              dsimp only
              rw [if_neg (by simp)]
              have := ihm (k + 1) (out ++ blockVals c S root (l + 1) (upd x i k)) (by omega)
              rw [this]
              unfold vecCont
              rw [List.range'_succ (n := m + 1)]
              simp only [List.flatMap_cons, List.append_assoc]
            · intro j hj hjl
              have hne : j ≠ i := by rintro rfl; omega
              rw [upd_other _ _ hne]
              exact hz j hj (by omega)
      obtain ⟨m, hm⟩ : ∃ m, c.dom i = m + 1 := ⟨c.dom i - 1, by omega⟩
      have := loop m 0 out (by omega)
      rw [← hm] at this
      have hx0 : upd x i 0 = x := by rw [← hxi, upd_eta]
      rw [hx0] at this
      rw [this, List.range_eq_range']

theorem odometer_zero {x : Asg} : odometer c S 0 x = (x, true) := rfl

theorem toVector_ok (h : Inv c ext tmp S) (ho : Ordered c S) (hc : CfgOK c) (hf : CountFits c)
    (hp : S.used root = true) {f : Asg → Int} (hd : Den c S root f) :
    toVector c root S = .ok (truthVector c.dom (levelVars c S) f, S) := by
  have hvec : (assignments c.dom (levelVars c S)).map f = blockVals c S root 0 (fun _ => 0) := by
    unfold blockVals
    rw [varsFrom_zero]
    refine List.map_congr_left ?_
    intro x hx
    rw [← varsFrom_zero] at hx
    obtain ⟨h1, h2⟩ := (mem_assignments (nodup_varsFrom h.order)).1 hx
    have hv := valid_of_vars hc h1 h2
    have : merge S 0 (fun _ => 0) x = x := by funext j; simp [merge]
    rw [this, valOf_eq (hd x hv)]
  unfold toVector
  rw [bind_ok (domainProduct_ok h.order hc hf (Nat.le_refl _) rfl)]
  by_cases hn : c.n = 0
  · rw [if_pos hn, bind_ok (getKind_ok hp)]
    cases hk : S.kind root with
    | leaf v =>
        have e : levelVars c S = [] := by simp [levelVars, hn]
        unfold truthVector
        rw [e]
        simp only [assignments, List.map_cons, List.map_nil]
        have := (hd (fun _ => 0) (fun i hi => by omega)).det (.leaf hk)
        rw [this]
        rfl
    | inner i ss =>
        have := (h.sons root i ss hp hk).1
        omega
  · rw [if_neg hn]
    have e : ((List.range c.n).map c.dom).foldr (· * ·) 1 = prodBetween c S 0 c.n := by
      rw [prodBetween_total h.order]
      rfl
    rw [e, Nat.add_comm, toVectorLoop_block h ho hc hp c.n 0 (by omega) 1 (fun _ => 0) []
      (fun i hi => hc.dom_pos i hi) (fun _ _ _ => rfl), odometer_zero]
    unfold truthVector
    rw [hvec]
    rfl

/-! ### from_vector -/

theorem readVals_good : ∀ (k : Nat) (vs : List Int) (s : Mgr), Good E ext s → k ≤ vs.length →
    (∀ v ∈ vs.take k, TermOK E.c v) →
    Ok (readVals E.c k vs) s (fun r s' => Good E ext s' ∧ Keeps ext [] s s' ∧ r.2 = vs.drop k ∧
      r.1.length = k ∧ (∀ q ∈ r.1, Prot ext [] s' q) ∧
      (∀ (j : Nat) q, r.1[j]? = some q → ∃ v, vs[j]? = some v ∧ s'.kind q = .leaf v) ∧
      (∀ q, s'.mark q = true → q ∈ r.1 ∨ s.mark q = true)) := by
  intro k
  induction k with
  | zero =>
      intro vs s g _ _
      exact Ok.pure ⟨g, Keeps.refl s, by simp, by simp, by simp, by simp, fun _ h => Or.inr h⟩
  | succ k ih =>
      intro vs s g hle hterm
      cases vs with
      | nil => simp at hle
      | cons v vs =>
          simp only [readVals]
          refine Ok.bind (makeTerminal_good g (hterm v (by simp))) ?_
          rintro p s1 ⟨st, hk, _⟩
          refine Ok.bind (ih vs s1 st.good (by simpa using hle)
            (fun w hw => hterm w (by simp [hw]))) ?_
          rintro ⟨ps, rest⟩ s2 ⟨g2, k2, h1, h2, h3, h4, h5⟩
          dsimp only at h1 h2 h3 h4 h5 ⊢
          refine Ok.pure ⟨g2, st.keeps.trans k2, by simpa using h1, by simp [h2], ?_, ?_, ?_⟩
          · intro q hq
            rcases List.mem_cons.1 hq with rfl | hq
            · exact k2.prot _ st.prot
            · exact h3 q hq
          · intro j q hq
            cases j with
            | zero =>
                simp at hq
                subst hq
                exact ⟨v, by simp, by rw [k2.kind _ st.prot]; exact hk⟩
            | succ j =>
                simp at hq
                obtain ⟨w, hw, hkw⟩ := h4 j q hq
                exact ⟨w, by simpa using hw, hkw⟩
          · intro q hq
            rcases h5 q hq with h | h
            · exact Or.inl (by simp [h])
            · rcases st.mark q h with rfl | h
              · exact Or.inl (by simp)
              · exact Or.inr h

/-- Frames of one level, last one on top. -/
def frames (l : Nat) (ps : List Ptr) : List Frame := (ps.map fun p => (p, l)).reverse

theorem frames_snoc {l : Nat} {ps : List Ptr} {p : Ptr} :
    frames l (ps ++ [p]) = (p, l) :: frames l ps := by simp [frames]

theorem frames_length {l : Nat} {ps : List Ptr} : (frames l ps).length = ps.length := by
  simp [frames]

theorem countTop_frames {l : Nat} {ps : List Ptr} {st : List Frame}
    (h : ∀ fr ∈ st.head?, fr.2 < l) : countTop l (frames l ps ++ st) = ps.length := by
  induction ps using List.reverseRecOn with
  | nil =>
      simp only [frames, List.map_nil, List.reverse_nil, List.nil_append, List.length_nil]
      cases st with
      | nil => rfl
      | cons fr st =>
          have := h fr (by simp)
          simp only [countTop]
          rw [if_neg (by omega)]
  | append_singleton ps p ih =>
      rw [frames_snoc]
      simp only [List.cons_append, countTop, if_true]
      rw [ih]
      simp

theorem frames_take {l : Nat} {ps : List Ptr} {st : List Frame} {d : Nat} (h : ps.length = d) :
    (((frames l ps ++ st).take d).map (·.1)).reverse = ps := by
  rw [List.take_append_of_le_length (by rw [frames_length]; omega),
    List.take_of_length_le (by rw [frames_length]; omega)]
  simp [frames, Function.comp_def]

theorem frames_drop {l : Nat} {ps : List Ptr} {st : List Frame} {d : Nat} (h : ps.length = d) :
    (frames l ps ++ st).drop d = st := by
  rw [List.drop_append_of_le_length (by rw [frames_length]; omega),
    List.drop_of_length_le (by rw [frames_length]; omega)]
  simp

/-- `p` stands for the values `block` of the levels from `l` on. -/
def BlockRep (c : Cfg) (s : Mgr) (l : Nat) (block : List Int) (p : Ptr) : Prop :=
  Rep c s l p (fun x v => block[position c.dom (varsFrom c s l) x]? = some v)

theorem position_lt {vars : List Nat} {x : Asg} (hx : ∀ i ∈ vars, x i < c.dom i) :
    position c.dom vars x < domProd c.dom vars := by
  induction vars with
  | nil => simp [position, domProd]
  | cons i is ih =>
      have h1 := ih (fun j hj => hx j (by simp [hj]))
      have h2 := hx i (by simp)
      have e : domProd c.dom (i :: is) = c.dom i * domProd c.dom is := by simp [domProd]
      rw [e]
      simp only [position]
      calc x i * domProd c.dom is + position c.dom is x
          < x i * domProd c.dom is + domProd c.dom is := by omega
        _ = (x i + 1) * domProd c.dom is := by ring
        _ ≤ c.dom i * domProd c.dom is := Nat.mul_le_mul_right _ h2

theorem fromVector_block {lastIndex : Nat} {Q : List Frame → Mgr → Prop} {S : Mgr}
    (hlast : S.lvl2idx (E.c.n - 1) = lastIndex) :
    ∀ (d l : Nat), l + d + 1 = E.c.n → ∀ (f : Nat) (st : List Frame) (block rest : List Int) (s : Mgr),
      Good E ext s → s.lvl2idx = S.lvl2idx →
      (∀ fr ∈ st, Prot ext [] s fr.1) → (∀ fr ∈ st.head?, fr.2 ≤ l) →
      block.length = prodBetween E.c S l E.c.n → (∀ v ∈ block, TermOK E.c v) →
      (∀ p s1, Good E ext s1 → Keeps ext [] s s1 → Prot ext [] s1 p → BlockRep E.c s1 l block p →
        (∀ q, s1.mark q = true → q = p ∨ s.mark q = true) →
        Ok (do
          let st' ← shrinkStack E.c (l + 2) ((p, l) :: st)
          fromVectorLoop E.c lastIndex (E.c.n - 1) f rest st') s1 Q) →
      Ok (fromVectorLoop E.c lastIndex (E.c.n - 1) (f + prodBetween E.c S l (E.c.n - 1))
        (block ++ rest) st) s Q := by
  intro d
  induction d with
  | zero =>
      intro l hl f st block rest s g hs hst hhead hlen hterm hcont
      have hl : l = E.c.n - 1 := by omega
      have hn : 0 < E.c.n := by omega
      subst hl
      rw [prodBetween_self]
      have hi : lastIndex < E.c.n := by
        rw [← hlast, ← hs]; exact g.inv.order.l2i_lt _ (by omega)
      have hil : s.idx2lvl lastIndex = E.c.n - 1 := by
        rw [← hlast, ← hs]; exact g.inv.order.l2i2l _ (by omega)
      have hlen' : block.length = E.c.dom lastIndex := by
        rw [hlen, prodBetween_cons (by omega), hlast, (by omega : E.c.n - 1 + 1 = E.c.n),
          prodBetween_self, Nat.mul_one]
      have hdpos := g.cfg.dom_pos lastIndex hi
      simp only [fromVectorLoop]
      have hne : (block ++ rest).isEmpty = false := by
        cases block with
        | nil => simp at hlen'; omega
        | cons a l => rfl
      rw [hne, if_neg (by simp)]
      refine Ok.bindEq (a := E.c.dom lastIndex) (s' := s) (by simp [getDomain, hi]) ?_
      refine Ok.bind (readVals_good _ (block ++ rest) s g (by simp; omega) ?_) ?_
      · intro v hv
        rw [← hlen', List.take_left] at hv
        exact hterm v hv
      · rintro ⟨sons, rest'⟩ s1 ⟨g1, k1, h1, h2, h3, h4, h5⟩
        dsimp only at h1 h2 h3 h4 h5 ⊢
        rw [← hlen', List.drop_left] at h1
        subst h1
        have hil1 : s1.idx2lvl lastIndex = E.c.n - 1 := by rw [k1.i2l]; exact hil
        refine Ok.bind (makeInternal_good (φ := fun k _ v => block[k]? = some v) g1 hi h2 h3 ?_) ?_
        · intro k q hq
          obtain ⟨v, hv, hkv⟩ := h4 k q hq
          have hkl : k < block.length := by
            rw [hlen', ← h2]
            by_contra hcon
            rw [List.getElem?_eq_none (by omega)] at hq; cases hq
          rw [List.getElem?_append_left hkl] at hv
          refine ⟨?_, fun x _ => ⟨v, hv, .leaf hkv⟩⟩
          have : s1.levelOf E.c q = E.c.n := by simp [Mgr.levelOf, hkv]
          omega
        · rintro r s2 ⟨g2, k2, hp2, hm2, rep, _⟩
          rw [hil1] at rep
          have := hcont r s2 g2 (k1.trans k2) hp2 ?_ ?_
          · rw [(by omega : E.c.n - 1 + 2 = E.c.n + 1)] at this
            exact this
          · unfold BlockRep
            have hl2 : s2.lvl2idx = S.lvl2idx := by rw [k2.l2i, k1.l2i, hs]
            have e : varsFrom E.c s2 (E.c.n - 1) = [lastIndex] := by
              rw [varsFrom_cons (by omega), hl2, hlast, (by omega : E.c.n - 1 + 1 = E.c.n),
                varsFrom_end]
            rw [e]
            refine rep.mono (Nat.le_refl _) ?_
            intro x v _ hv
            simpa [position, domProd] using hv
          · intro q hq
            rcases hm2 q hq with h | ⟨h, hns⟩
            · exact Or.inl h
            · rcases h5 q h with h | h
              · exact absurd h hns
              · exact Or.inr h
  | succ d ih =>
      intro l hl f st block rest s g hs hst hhead hlen hterm hcont
      have hln : l < E.c.n := by omega
      set i := S.lvl2idx l with hidef
      set B := prodBetween E.c S (l + 1) E.c.n with hBdef
      have hi : i < E.c.n := by rw [hidef, ← hs]; exact g.inv.order.l2i_lt l hln
      have hil : s.idx2lvl i = l := by rw [hidef, ← hs]; exact g.inv.order.l2i2l l hln
      have hdpos := g.cfg.dom_pos i hi
      have hlen' : block.length = E.c.dom i * B := by rw [hlen, prodBetween_cons hln]
      have loop : ∀ (m : Nat) (ps : List Ptr) (s' : Mgr), ps.length + (m + 1) = E.c.dom i →
          Good E ext s' → Keeps ext [] s s' → (∀ p ∈ ps, Prot ext [] s' p) →
          (∀ k p, ps[k]? = some p →
            BlockRep E.c s' (l + 1) ((block.drop (k * B)).take B) p) →
          (∀ q, s'.mark q = true → q ∈ ps ∨ s.mark q = true) →
          Ok (fromVectorLoop E.c lastIndex (E.c.n - 1)
            (f + (m + 1) * prodBetween E.c S (l + 1) (E.c.n - 1))
            (block.drop (ps.length * B) ++ rest) (frames (l + 1) ps ++ st)) s' Q := by
        intro m
        induction m with
        | zero =>
            intro ps s' hps g' k' hprot hrep hmark
            have hsl : s'.lvl2idx = S.lvl2idx := by rw [k'.l2i, hs]
            have e1 : (block.drop (ps.length * B)).take B = block.drop (ps.length * B) := by
              refine List.take_of_length_le ?_
              rw [List.length_drop, hlen', ← hps]
              have : (ps.length + (0 + 1)) * B = ps.length * B + B := by ring
              omega
            rw [Nat.zero_add, Nat.one_mul]
            refine ih (l + 1) (by omega) f (frames (l + 1) ps ++ st) _ rest s' g' hsl ?_ ?_ ?_ ?_ ?_
            · intro fr hfr
              rcases List.mem_append.1 hfr with h | h
              · simp only [frames, List.mem_reverse, List.mem_map] at h
                obtain ⟨p, hp, rfl⟩ := h
                exact hprot p hp
              · exact k'.prot _ (hst fr h)
            · intro fr hfr
              rw [List.head?_append] at hfr
              cases hh : (frames (l + 1) ps).head? with
              | some a =>
                  rw [hh] at hfr
                  simp at hfr
                  subst hfr
                  have := List.mem_of_mem_head? hh
                  simp only [frames, List.mem_reverse, List.mem_map] at this
                  obtain ⟨p, _, rfl⟩ := this
                  exact Nat.le_refl _
              | none =>
                  rw [hh] at hfr
                  simp at hfr
                  have := hhead fr (by simp [hfr])
                  omega
            · rw [List.length_drop, hlen', ← hps, ← hBdef]
              have : (ps.length + (0 + 1)) * B = ps.length * B + B := by ring
              omega
            · intro v hv
              exact hterm v (List.mem_of_mem_drop hv)
            · intro p s1 g1 k1 hp1 rep1 hm1
              have hsl1 : s1.lvl2idx = S.lvl2idx := by rw [k1.l2i, hsl]
              -- collapse the level
              have hcount : countTop (l + 1) ((p, l + 1) :: (frames (l + 1) ps ++ st))
                  = ps.length + 1 := by
                have := countTop_frames (l := l + 1) (ps := ps ++ [p]) (st := st)
                  (fun fr hfr => Nat.lt_succ_of_le (hhead fr hfr))
                rw [frames_snoc] at this
                simpa using this
              have htake : ((((p, l + 1) :: (frames (l + 1) ps ++ st)).take (E.c.dom i)).map
                  (·.1)).reverse = ps ++ [p] := by
                have := frames_take (l := l + 1) (ps := ps ++ [p]) (st := st) (d := E.c.dom i)
                  (by simp; omega)
                rw [frames_snoc] at this
                simpa using this
              have hdrop : ((p, l + 1) :: (frames (l + 1) ps ++ st)).drop (E.c.dom i) = st := by
                have := frames_drop (l := l + 1) (ps := ps ++ [p]) (st := st) (d := E.c.dom i)
                  (by simp; omega)
                rw [frames_snoc] at this
                simpa using this
              have hshr : Ok (shrinkStack E.c (l + 1 + 2) ((p, l + 1) :: (frames (l + 1) ps ++ st)) >>=
                  fun st' => fromVectorLoop E.c lastIndex (E.c.n - 1) f rest st') s1 Q := by
                simp only [shrinkStack]
                rw [if_neg (by omega), bind_assoc]
                refine Ok.bindEq (a := i) (s' := s1) (by
                  rw [getIndex_ok (by omega), hsl1]
                  rfl) ?_
                rw [bind_assoc]
                refine Ok.bindEq (a := E.c.dom i) (s' := s1) (by simp [getDomain, hi]) ?_
                rw [if_neg (by rw [hcount]; omega), bind_assoc, htake, hdrop]
                have hil1 : s1.idx2lvl i = l := by rw [k1.i2l, k'.i2l]; exact hil
                have hrepAll : ∀ k q, (ps ++ [p])[k]? = some q →
                    BlockRep E.c s1 (l + 1) ((block.drop (k * B)).take B) q := by
                  intro k q hq
                  by_cases hk : k < ps.length
                  · rw [List.getElem?_append_left hk] at hq
                    have h1 := hrep k q hq
                    have h2 := Rep.keeps h1 k1 (hprot q (List.mem_of_getElem? hq))
                    unfold BlockRep
                    have e : varsFrom E.c s1 (l + 1) = varsFrom E.c s' (l + 1) := by
                      unfold varsFrom; rw [k1.l2i]
                    rw [e]; exact h2
                  · rw [List.getElem?_append_right (by omega)] at hq
                    have hk0 : k - ps.length = 0 := by
                      by_contra hcon
                      rw [List.getElem?_eq_none (by simp; omega)] at hq; cases hq
                    rw [hk0] at hq
                    simp at hq
                    subst hq
                    have : k = ps.length := by omega
                    subst this
                    rw [e1]
                    exact rep1
                refine Ok.bind (makeInternal_good (φ := fun k x v =>
                  ((block.drop (k * B)).take B)[position E.c.dom (varsFrom E.c s1 (l + 1)) x]?
                    = some v) g1 hi (by simp; omega) ?_ ?_) ?_
                · intro q hq
                  rcases List.mem_append.1 hq with h | h
                  · exact k1.prot _ (hprot q h)
                  · simp at h; subst h; exact hp1
                · intro k q hq
                  rw [hil1]
                  exact hrepAll k q hq
                · rintro r s2 ⟨g2, k2, hp2, hm2, rep2, _⟩
                  rw [hil1] at rep2
                  refine hcont r s2 g2 ((k'.trans k1).trans k2) hp2 ?_ ?_
                  · unfold BlockRep
                    have e2 : varsFrom E.c s2 l = i :: varsFrom E.c s1 (l + 1) := by
                      rw [varsFrom_cons hln, k2.l2i, hsl1]
                      unfold varsFrom
                      rw [k2.l2i]
                    rw [e2]
                    refine rep2.mono (Nat.le_refl _) ?_
                    intro x v hx hv
                    have hB : domProd E.c.dom (varsFrom E.c s1 (l + 1)) = B := by
                      rw [hBdef, ← prodBetween_eq_domProd]
                      unfold prodBetween
                      rw [hsl1]
                    have hpos : position E.c.dom (varsFrom E.c s1 (l + 1)) x < B := by
                      rw [← hB]
                      refine position_lt ?_
                      intro j hj
                      exact hx j ((mem_varsFrom g1.inv.order).1 hj).1
                    simp only [position]
                    rw [List.getElem?_take_of_lt hpos, List.getElem?_drop] at hv
                    rw [hB]
                    exact hv
                  · intro q hq
                    rcases hm2 q hq with h | ⟨h, hns⟩
                    · exact Or.inl h
                    · rcases hm1 q h with rfl | h
                      · exact absurd (by simp) hns
                      · rcases hmark q h with h | h
                        · exact absurd (by simp [h]) hns
                        · exact Or.inr h
              exact hshr
        | succ m ihm =>
            intro ps s' hps g' k' hprot hrep hmark
            have hsl : s'.lvl2idx = S.lvl2idx := by rw [k'.l2i, hs]
            have esplit : block.drop (ps.length * B) ++ rest
                = (block.drop (ps.length * B)).take B ++
                  (block.drop ((ps.length + 1) * B) ++ rest) := by
              rw [← List.append_assoc]
              congr 1
              have : (ps.length + 1) * B = ps.length * B + B := by ring
              rw [this, ← List.drop_drop, List.take_append_drop]
            have efuel : f + (m + 1 + 1) * prodBetween E.c S (l + 1) (E.c.n - 1)
                = (f + (m + 1) * prodBetween E.c S (l + 1) (E.c.n - 1))
                  + prodBetween E.c S (l + 1) (E.c.n - 1) := by ring
            rw [esplit, efuel]
            refine ih (l + 1) (by omega) _ (frames (l + 1) ps ++ st) _ _ s' g' hsl ?_ ?_ ?_ ?_ ?_
            · intro fr hfr
              rcases List.mem_append.1 hfr with h | h
              · simp only [frames, List.mem_reverse, List.mem_map] at h
                obtain ⟨p, hp, rfl⟩ := h
                exact hprot p hp
              · exact k'.prot _ (hst fr h)
            · intro fr hfr
              rw [List.head?_append] at hfr
              cases hh : (frames (l + 1) ps).head? with
              | some a =>
                  rw [hh] at hfr
                  simp at hfr
                  subst hfr
                  have := List.mem_of_mem_head? hh
                  simp only [frames, List.mem_reverse, List.mem_map] at this
                  obtain ⟨p, _, rfl⟩ := this
                  exact Nat.le_refl _
              | none =>
                  rw [hh] at hfr
                  simp at hfr
                  have := hhead fr (by simp [hfr])
                  omega
            · rw [List.length_take, List.length_drop, hlen', ← hps, ← hBdef]
              have : (ps.length + (m + 1 + 1)) * B = ps.length * B + B + (m + 1) * B := by ring
              omega
            · intro v hv
              exact hterm v (List.mem_of_mem_drop (List.mem_of_mem_take hv))
            · intro p s1 g1 k1 hp1 rep1 hm1
              have hcount : countTop (l + 1) ((p, l + 1) :: (frames (l + 1) ps ++ st))
                  = ps.length + 1 := by
                have := countTop_frames (l := l + 1) (ps := ps ++ [p]) (st := st)
                  (fun fr hfr => Nat.lt_succ_of_le (hhead fr hfr))
                rw [frames_snoc] at this
                simpa using this
              have hsl1 : s1.lvl2idx = S.lvl2idx := by rw [k1.l2i, hsl]
              have hshr : Ok (shrinkStack E.c (l + 1 + 2) ((p, l + 1) :: (frames (l + 1) ps ++ st)) >>=
                  fun st' => fromVectorLoop E.c lastIndex (E.c.n - 1)
                    (f + (m + 1) * prodBetween E.c S (l + 1) (E.c.n - 1))
                    (block.drop ((ps.length + 1) * B) ++ rest) st') s1 Q := by
                simp only [shrinkStack]
                rw [if_neg (by omega), bind_assoc]
                refine Ok.bindEq (a := i) (s' := s1) (by
                  rw [getIndex_ok (by omega), hsl1]
                  rfl) ?_
                rw [bind_assoc]
                refine Ok.bindEq (a := E.c.dom i) (s' := s1) (by simp [getDomain, hi]) ?_
                rw [if_pos (by rw [hcount]; omega)]
                refine Ok.bindEq (a := (p, l + 1) :: (frames (l + 1) ps ++ st)) (s' := s1) rfl ?_
                have := ihm (ps ++ [p]) s1 (by simp; omega) g1 (k'.trans k1) ?_ ?_ ?_
                · rw [frames_snoc] at this
                  simpa using this
                · intro q hq
                  rcases List.mem_append.1 hq with h | h
                  · exact k1.prot _ (hprot q h)
                  · simp at h; subst h; exact hp1
                · intro k q hq
                  by_cases hk : k < ps.length
                  · rw [List.getElem?_append_left hk] at hq
                    have h1 := hrep k q hq
                    have h2 := Rep.keeps h1 k1 (hprot q (List.mem_of_getElem? hq))
                    unfold BlockRep
                    have e : varsFrom E.c s1 (l + 1) = varsFrom E.c s' (l + 1) := by
                      unfold varsFrom; rw [k1.l2i]
                    rw [e]; exact h2
                  · rw [List.getElem?_append_right (by omega)] at hq
                    have hk0 : k - ps.length = 0 := by
                      by_contra hcon
                      rw [List.getElem?_eq_none (by simp; omega)] at hq; cases hq
                    rw [hk0] at hq
                    simp at hq
                    subst hq
                    have : k = ps.length := by omega
                    subst this
                    exact rep1
                · intro q hq
                  rcases hm1 q hq with rfl | h
                  · exact Or.inl (by simp)
                  · rcases hmark q h with h | h
                    · exact Or.inl (by simp [h])
                    · exact Or.inr h
              exact hshr
      obtain ⟨m, hm⟩ : ∃ m, E.c.dom i = m + 1 := ⟨E.c.dom i - 1, by omega⟩
      have := loop m [] s (by simp [hm]) g (Keeps.refl s) (by simp) (by simp)
        (fun q h => Or.inr h)
      have e0 : prodBetween E.c S l (E.c.n - 1)
          = E.c.dom i * prodBetween E.c S (l + 1) (E.c.n - 1) := by
        rw [prodBetween_cons (by omega)]
      rw [e0, hm]
      simpa [frames] using this

/-- The function a truth vector denotes. -/
def vecFun (c : Cfg) (s : Mgr) (vs : List Int) : Asg → Int :=
  fun x => vs.getD (position c.dom (levelVars c s) x) 0

theorem fromVector_good (g : Good E ext s) (hf : CountFits E.c) {vs : List Int}
    (hlen : vs.length = ((List.range E.c.n).map E.c.dom).prod) (hterm : ∀ v ∈ vs, TermOK E.c v) :
    Ok (fromVector E.c vs) s (fun r s' => Res E ext s (vecFun E.c s vs) r s') := by
  unfold fromVector
  by_cases hn : E.c.n = 0
  · rw [if_pos hn]
    have h1 : vs.length = 1 := by rw [hlen, hn]; simp
    match vs, h1 with
    | [v], _ =>
        dsimp only
        rw [if_neg (by simp)]
        refine Ok.bind (makeTerminal_good g (hterm v (by simp))) ?_
        rintro p s1 ⟨st, hk, _⟩
        refine (st.diagram (L := 0) (f := vecFun E.c s [v]) ⟨Nat.zero_le _, ?_⟩).mono
          (fun _ _ nd => nd.res)
        intro x _
        have e : vecFun E.c s [v] x = v := by
          unfold vecFun levelVars
          rw [hn]
          simp [position]
        exact ⟨v, e.symm, .leaf hk⟩
  · rw [if_neg hn]
    have hn' : 0 < E.c.n := by omega
    refine Ok.bindEq (getIndex_ok (by omega)) ?_
    refine Ok.bindEq (domainProduct_ok g.inv.order g.cfg hf (Nat.le_refl _) rfl) ?_
    have hne : vs.isEmpty = false := by
      cases vs with
      | nil =>
          have := prod_pos (ds := (List.range E.c.n).map E.c.dom) (by
            intro d hd
            obtain ⟨j, hj, rfl⟩ := List.mem_map.1 hd
            exact g.cfg.dom_pos j (List.mem_range.1 hj))
          rw [← hlen] at this
          simp at this
      | cons a l => rfl
    have hlen2 : vs.length = prodBetween E.c s 0 E.c.n := by
      rw [hlen, prodBetween_total g.inv.order]
    rw [if_neg (by
      rw [hne, hlen2]
      simp)]
    have hfuel : ∃ f, vs.length = f + prodBetween E.c s 0 (E.c.n - 1) := by
      have h1 := prodBetween_le g.inv.order g.cfg (l := 0) (r := E.c.n - 1) (l' := 0) (r' := E.c.n)
        (Nat.le_refl _) (Nat.zero_le _) (by omega) (Nat.le_refl _)
      exact ⟨vs.length - prodBetween E.c s 0 (E.c.n - 1), by omega⟩
    obtain ⟨f, hfuel⟩ := hfuel
    have hrun := fromVector_block (E := E) (ext := ext) (S := s)
      (lastIndex := s.lvl2idx (E.c.n - 1))
      (Q := fun st s' => ∃ p, st = [(p, 0)] ∧ Step E ext s p s' ∧ BlockRep E.c s' 0 vs p) rfl
      (E.c.n - 1) 0 (by omega) f [] vs [] s g rfl (by simp) (by simp) hlen2 hterm ?_
    · rw [← hfuel, List.append_nil] at hrun
      refine Ok.bind hrun ?_
      rintro st s' ⟨p, rfl, hstep, hrep⟩
      rw [if_neg (by simp)]
      dsimp only
      refine (hstep.diagram (L := 0) (f := vecFun E.c s vs) (hrep.mono (Nat.le_refl _) ?_)).mono
        (fun _ _ nd => nd.res)
      intro x v _ hv
      have e : varsFrom E.c s' 0 = levelVars E.c s := by
        rw [varsFrom_zero]
        unfold levelVars
        rw [hstep.keeps.l2i]
      rw [e] at hv
      unfold vecFun
      simp [List.getD, hv]
    · intro p s1 g1 k1 hp1 rep1 hm1
      refine Ok.bindEq (a := [(p, 0)]) (s' := s1) (by simp [shrinkStack]) ?_
      have : fromVectorLoop E.c (s.lvl2idx (E.c.n - 1)) (E.c.n - 1) f [] [(p, 0)] s1
          = .ok ([(p, 0)], s1) := by
        cases f <;> simp [fromVectorLoop]
      exact Ok.of_eq this ⟨p, rfl, ⟨g1, k1, hp1, hm1⟩, rep1⟩

/-! ### Positions in a truth vector -/

theorem flatMap_range_mul (d D : Nat) :
    ((List.range d).flatMap fun k => (List.range D).map fun j => k * D + j) = List.range (d * D) := by
  induction d with
  | zero => simp
  | succ d ih =>
      rw [List.range_succ, List.flatMap_append, ih, Nat.succ_mul, List.range_add]
      simp

theorem position_congr {dom : Nat → Nat} {vars : List Nat} {x y : Asg}
    (h : ∀ i ∈ vars, x i = y i) : position dom vars x = position dom vars y := by
  induction vars with
  | nil => rfl
  | cons i is ih =>
      simp only [position]
      rw [h i (by simp), ih (fun j hj => h j (by simp [hj]))]

theorem map_position {dom : Nat → Nat} {vars : List Nat} (hn : vars.Nodup) :
    (assignments dom vars).map (position dom vars) = List.range (domProd dom vars) := by
  induction vars with
  | nil => simp [assignments, position, domProd]
  | cons i is ih =>
      have hi := (List.nodup_cons.1 hn).1
      have ih := ih (List.nodup_cons.1 hn).2
      have e : domProd dom (i :: is) = dom i * domProd dom is := by simp [domProd]
      rw [e, ← flatMap_range_mul, ← ih]
      simp only [assignments, List.map_flatMap, List.map_map]
      congr 1
      funext k
      refine List.map_congr_left ?_
      intro x _
      simp only [Function.comp, position, upd_same]
      congr 1
      refine position_congr ?_
      intro j hj
      have hne : j ≠ i := fun e => hi (e ▸ hj)
      exact upd_other _ _ hne

/-- Reading back the truth vector of the function a vector stands for. -/
theorem truthVector_position {dom : Nat → Nat} {vars : List Nat} (hn : vars.Nodup) {vs : List Int}
    (hl : vs.length = domProd dom vars) :
    truthVector dom vars (fun x => vs.getD (position dom vars x) 0) = vs := by
  unfold truthVector
  have : (fun x => vs.getD (position dom vars x) 0)
      = (fun j => vs.getD j 0) ∘ position dom vars := rfl
  rw [this, ← List.map_map, map_position hn, ← hl]
  refine List.ext_getElem (by simp) ?_
  intro j h1 h2
  simp [List.getD, h2]

/-- The value in a truth vector at the position of an assignment. -/
theorem getD_truthVector {dom : Nat → Nat} {vars : List Nat} (hn : vars.Nodup) {f : Asg → Int}
    {x : Asg} (hx : ∀ i ∈ vars, x i < dom i) (hf : ∀ y, (∀ i ∈ vars, y i = x i) → f y = f x) :
    (truthVector dom vars f).getD (position dom vars x) 0 = f x := by
  -- the assignment of the list agreeing with `x`
  set y : Asg := fun i => if i ∈ vars then x i else 0 with hy
  have hmem : y ∈ assignments dom vars := by
    refine (mem_assignments hn).2 ⟨fun i hi => ?_, fun i hi => ?_⟩
    · simp only [hy, if_pos hi]; exact hx i hi
    · simp only [hy, if_neg hi]
  obtain ⟨j, hj, hjy⟩ := List.getElem_of_mem hmem
  have hpos : position dom vars y = j := by
    have h1 : ((assignments dom vars).map (position dom vars))[j]? = some j := by
      rw [map_position hn, List.getElem?_range]
      rw [← length_assignments]; exact hj
    rw [List.getElem?_map, List.getElem?_eq_getElem hj, hjy] at h1
    simpa using h1
  have hxy : position dom vars x = j := by
    rw [← hpos]
    exact position_congr (fun i hi => by simp [hy, hi])
  rw [hxy]
  unfold truthVector
  rw [List.getD_eq_getElem?_getD, List.getElem?_map, List.getElem?_eq_getElem hj, hjy]
  simp only [Option.map_some, Option.getD_some]
  exact hf y (fun i hi => by simp [hy, hi])

theorem levelVars_perm {ext : Ptr → Nat} {tmp : List Ptr} (h : Inv c ext tmp S) :
    (levelVars c S).Perm (List.range c.n) := by
  rw [← varsFrom_zero]
  exact varsFrom_zero_perm h.order

end

end Teddy
