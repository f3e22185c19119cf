import Verif.ExprSpec
import Verif.Proofs.Iterators
import Mathlib.Algebra.Order.BigOperators.Group.List
import Mathlib.Algebra.Order.Field.Rat
import Mathlib.Tactic.FieldSimp

/-!
# Proofs about expressions and their generators
-/

namespace Teddy
namespace Tsl

open Spec

theorem ofOrder_forEach {domains order : List Nat} (h0 : order ≠ []) (hn : order.Nodup)
    (ho : ∀ i ∈ order, i < domains.length) (hd : ∀ i ∈ order, 0 < sizes domains i) :
    ∃ it, DomIter.ofOrder domains order = .ok it ∧
      ∀ {α : Type} {g : List Nat → Except Err α} {g' : Asg → α}, (∀ x ∈ assignments (sizes domains) order,
        g (toList domains.length x) = .ok (g' x)) → ∀ {fuel : Nat}, (order.map (sizes domains)).prod < fuel →
        DomIter.forEach g fuel it = .ok ((assignments (sizes domains) order).map g') := by
  refine ⟨⟨domains, order.reverse, List.replicate domains.length 0⟩, ?_, ?_⟩
  · simp [DomIter.ofOrder, DomIter.make]
  · intro α g g' hg fuel hf
    have hw := walk_enum (dom := sizes domains) (z := fun _ => 0) hn hd (fun _ _ => rfl)
    rw [enumOn_zero hn] at hw
    have := forEach_walk (domains := domains) (is := order.reverse) (by simpa using ho) (by simpa using h0) hw hg
      (fuel := fuel) (by rw [length_assignments]; exact hf)
    rw [← this]
    simp [toList]

theorem assignments_congr {d d' : Nat → Nat} : ∀ {vars : List Nat}, (∀ i ∈ vars, d i = d' i) →
    assignments d vars = assignments d' vars
  | [], _ => rfl
  | i :: is, h => by
      simp only [assignments]
      rw [h i (by simp), assignments_congr fun j hj => h j (by simp [hj])]

theorem termMin_ok {n : Nat} {x : Asg} : ∀ {t : List Nat} {m : Int}, (∀ i ∈ t, i < n) →
    termMin (toList n x) t m = .ok ((t.map fun i => (x i : Int)).foldl min m)
  | [], _, _ => rfl
  | i :: t, m, h => by
      unfold termMin
      rw [getElem?_toList x (h i (by simp))]
      simp only [List.map_cons, List.foldl_cons]
      rw [termMin_ok (fun j hj => h j (by simp [hj]))]
      congr 2
      split_ifs <;> omega

theorem foldl_min_start {m : Int} : ∀ {l : List Int}, l ≠ [] → (∀ v ∈ l, v ≤ m) → l.foldl min m = l.min?.getD 0
  | [], h, _ => absurd rfl h
  | v :: l, _, h => by
      rw [List.min?_cons', Option.getD_some, List.foldl_cons, min_eq_right (h v (by simp))]

theorem foldl_max_start {m : Int} : ∀ {l : List Int}, l ≠ [] → (∀ v ∈ l, m ≤ v) → l.foldl max m = l.max?.getD 0
  | [], h, _ => absurd rfl h
  | v :: l, _, h => by
      rw [List.max?_cons', Option.getD_some, List.foldl_cons, max_eq_right (h v (by simp))]

theorem termVal_mem {t : List Nat} (h : t ≠ []) (x : Asg) : ∃ i ∈ t, termVal t x = x i := by
  unfold termVal
  cases e : (t.map fun i => (x i : Int)).min? with
  | none => simp [List.min?_eq_none_iff, h] at e
  | some v =>
      obtain ⟨i, hi, rfl⟩ := List.mem_map.1 (List.min?_mem e)
      exact ⟨i, hi, rfl⟩

theorem evalMinMax_ok {n : Nat} {x : Asg} : ∀ {terms : List (List Nat)} {m : Int},
    (∀ t ∈ terms, t ≠ [] ∧ ∀ i ∈ t, i < n ∧ x i ≤ 2147483647) →
    evalMinMax (toList n x) terms m = .ok ((terms.map fun t => termVal t x).foldl max m)
  | [], _, _ => rfl
  | t :: terms, m, h => by
      have ht := h t (by simp)
      unfold evalMinMax
      rw [termMin_ok fun i hi => (ht.2 i hi).1, foldl_min_start (by simpa using ht.1)]
      · simp only [List.map_cons, List.foldl_cons]
        show evalMinMax _ _ _ = _
        rw [evalMinMax_ok (fun t h' => h t (by simp [h']))]
        congr 2
        show (if termVal t x > m then termVal t x else m) = _
        split_ifs <;> omega
      · intro v hv
        obtain ⟨i, hi, rfl⟩ := List.mem_map.1 hv
        have := (ht.2 i hi).2
        omega

theorem evaluateMinMax_ok {n : Nat} {x : Asg} {terms : List (List Nat)} (h0 : terms ≠ [])
    (h : ∀ t ∈ terms, t ≠ [] ∧ ∀ i ∈ t, i < n ∧ x i ≤ 2147483647) :
    evaluateMinMax terms (toList n x) = .ok (minMaxVal terms x) := by
  unfold evaluateMinMax
  rw [evalMinMax_ok h, foldl_max_start (by simpa using h0)]
  · rfl
  · intro v hv
    obtain ⟨t, ht, rfl⟩ := List.mem_map.1 hv
    obtain ⟨i, _, e⟩ := termVal_mem (h t ht).1 x
    rw [e]; omega

theorem opValue_true (a b : Int) : opValue true a b = min a b := by
  simp only [opValue]; split_ifs <;> omega

theorem opValue_false (a b : Int) : opValue false a b = max a b := by
  simp only [opValue, Bool.false_eq_true, if_false]
  rcases lt_or_ge a b with h | h
  · rw [if_pos h, max_eq_right h.le]
  · rw [if_neg (not_lt.2 h), max_eq_left h]

theorem toExpr_val (x : Asg) : ∀ e : ExprNode, e.toExpr.val x = nodeVal x e
  | .variableN _ => rfl
  | .constantN _ => rfl
  | .operation true l r => by
      simp only [ExprNode.toExpr, Expr.val, nodeVal, opValue_true, toExpr_val x l, toExpr_val x r]
  | .operation false l r => by
      simp only [ExprNode.toExpr, Expr.val, nodeVal, opValue_false, toExpr_val x l, toExpr_val x r]

theorem evaluateNode_ok {n : Nat} {x : Asg} : ∀ {e : ExprNode}, (∀ i ∈ e.vars, i < n) →
    evaluateNode (toList n x) e = .ok (nodeVal x e)
  | .variableN i, h => by
      unfold evaluateNode
      rw [getElem?_toList x (h i (by simp [ExprNode.vars]))]
      rfl
  | .constantN _, _ => rfl
  | .operation b l r, h => by
      unfold evaluateNode
      rw [evaluateNode_ok (e := l) (fun i hi => h i (by simp [ExprNode.vars, hi])),
        evaluateNode_ok (e := r) (fun i hi => h i (by simp [ExprNode.vars, hi]))]
      cases b
      · exact congrArg Except.ok (opValue_false _ _)
      · exact congrArg Except.ok (opValue_true _ _)

/-- The value of a tree is the value of one of its leaves. -/
theorem nodeVal_mem (x : Asg) : ∀ e : ExprNode, (∃ i ∈ e.vars, nodeVal x e = x i) ∨ nodeVal x e ∈ e.consts
  | .variableN i => .inl ⟨i, by simp [ExprNode.vars], rfl⟩
  | .constantN c => .inr (by simp [ExprNode.consts, nodeVal])
  | .operation b l r => by
      have h : nodeVal x (.operation b l r) = nodeVal x l ∨ nodeVal x (.operation b l r) = nodeVal x r := by
        cases b
        · exact max_choice _ _
        · exact min_choice _ _
      simp only [ExprNode.vars, ExprNode.consts, List.mem_append]
      rcases h with h | h <;> rw [h]
      · rcases nodeVal_mem x l with ⟨i, hi, e⟩ | hc
        · exact .inl ⟨i, .inl hi, e⟩
        · exact .inr (.inl hc)
      · rcases nodeVal_mem x r with ⟨i, hi, e⟩ | hc
        · exact .inl ⟨i, .inr hi, e⟩
        · exact .inr (.inr hc)

/-! ### Generators -/

/-- The variables of the tree are `n` numbers from `i` on. -/
def TreeFrom (i n : Nat) (e : ExprNode) : Prop := e.vars.Perm (List.range' i n) ∧ e.consts = []

theorem split_size {n d : Nat} (hn : 2 ≤ n) (hd : 2 ≤ d) :
    1 ≤ max 1 (n / d) ∧ max 1 (n / d) < n := by
  have : n / d < n := Nat.div_lt_self (by omega) (by omega)
  omega

theorem treeGo_ok {ch : Nat → Choice} (hc : ∀ p, 2 ≤ (ch p).denom) : ∀ (fuel n : Nat) (s : GenState),
    1 ≤ n → n ≤ fuel → ∃ e s', treeGo ch fuel n s = .ok (e, s') ∧ s'.i = s.i + n ∧ TreeFrom s.i n e ∧
      ((∀ p, (ch p).leftFirst = true) → e.vars = List.range' s.i n)
  | 0, n, _, h1, h2 => by omega
  | fuel + 1, n, s, h1, h2 => by
      unfold treeGo
      by_cases hn : n = 1
      · subst hn
        exact ⟨_, _, by rw [if_pos rfl], rfl, ⟨by simp [ExprNode.vars], rfl⟩, fun _ => by simp [ExprNode.vars]⟩
      · rw [if_neg hn]
        have hd := hc s.pos
        obtain ⟨hl1, hl2⟩ := split_size (n := n) (by omega) hd
        have hd0 : (ch s.pos).denom ≠ 0 := by omega
        simp only [hd0, if_false]
        generalize hL : max 1 (n / (ch s.pos).denom) = L at *
        have hsum : L + (n - L) = n := by omega
        cases hf : (ch s.pos).leftFirst with
        | true =>
            obtain ⟨l, s1, e1, i1, ⟨p1, c1⟩, o1⟩ := treeGo_ok hc fuel L { s with pos := s.pos + 1 } hl1 (by omega)
            obtain ⟨r, s2, e2, i2, ⟨p2, c2⟩, o2⟩ := treeGo_ok hc fuel (n - L) s1 (by omega) (by omega)
            dsimp only at i1 p1 o1
            refine ⟨.operation (ch s.pos).isMin l r, s2, ?_, by omega, ⟨?_, ?_⟩, fun h => ?_⟩
            · simp only [if_true]
              rw [e1]
              show (do let (r, s) ← treeGo ch fuel (n - L) s1; _) = _
              rw [e2]
              rfl
            · rw [← hsum, ← List.range'_append_1]
              rw [i1] at p2
              exact p1.append p2
            · simp [ExprNode.consts, c1, c2]
            · rw [← hsum, ← List.range'_append_1, ExprNode.vars, o1 h, o2 h, i1]
        | false =>
            obtain ⟨r, s1, e1, i1, ⟨p1, c1⟩, _⟩ :=
              treeGo_ok hc fuel (n - L) { s with pos := s.pos + 1 } (by omega) (by omega)
            obtain ⟨l, s2, e2, i2, ⟨p2, c2⟩, _⟩ := treeGo_ok hc fuel L s1 hl1 (by omega)
            dsimp only at i1 p1
            refine ⟨.operation (ch s.pos).isMin l r, s2, ?_, by omega, ⟨?_, ?_⟩, fun h => ?_⟩
            · simp only [Bool.false_eq_true, if_false]
              rw [e1]
              show (do let (l, s) ← treeGo ch fuel L s1; _) = _
              rw [e2]
              rfl
            · rw [show n = (n - L) + L by omega, ← List.range'_append_1]
              rw [i1] at p2
              exact List.perm_append_comm.trans (p1.append p2)
            · simp [ExprNode.consts, c1, c2]
            · rw [h s.pos] at hf; cases hf

theorem treeGo_zero {ch : Nat → Choice} (hc : ∀ p, 2 ≤ (ch p).denom) : ∀ (fuel : Nat) (s : GenState),
    treeGo ch fuel 0 s = .error .fuel
  | 0, _ => rfl
  | fuel + 1, s => by
      unfold treeGo
      have hd := hc s.pos
      have hd0 : (ch s.pos).denom ≠ 0 := by omega
      simp only [hd0, if_false, Nat.zero_ne_one, Nat.zero_div]
      cases (ch s.pos).leftFirst with
      | false =>
          simp only [Bool.false_eq_true, if_false]
          rw [show 0 - max 1 0 = 0 from rfl, treeGo_zero hc fuel]
          rfl
      | true =>
          simp only [if_true]
          rw [show 0 - max 1 0 = 0 from rfl, show max 1 0 = 1 from rfl]
          cases fuel with
          | zero => rfl
          | succ fuel =>
              rw [show treeGo ch (fuel + 1) 1 { s with pos := s.pos + 1 } =
                .ok (.variableN s.i, ⟨s.i + 1, s.pos + 1⟩) by unfold treeGo; rw [if_pos rfl]]
              show (do let (r, s) ← treeGo ch (fuel + 1) 0 ⟨s.i + 1, s.pos + 1⟩; _) = _
              rw [treeGo_zero hc (fuel + 1)]
              rfl

/-! ### Probability matrices -/

theorem probRow_ok {M d : Nat} {draw : Nat → Rat} (hM : d ≤ M) (h0 : ∀ j, 0 ≤ draw j)
    (hpos : ∃ j < d, draw j ≠ 0) :
    ∃ row, probRow M d draw = .ok row ∧ row.length = M ∧ row.sum = 1 ∧ (∀ p ∈ row, 0 ≤ p) ∧
      ∀ j, d ≤ j → row.getD j 0 = 0 := by
  set f : Nat → Rat := fun j => if j < d then draw j else 0 with hf
  have hnn : ∀ v ∈ (List.range M).map f, 0 ≤ v := by
    intro v hv
    obtain ⟨j, _, rfl⟩ := List.mem_map.1 hv
    simp only [hf]
    split_ifs
    · exact h0 j
    · exact le_rfl
  have hsum : 0 < ((List.range M).map f).sum := by
    obtain ⟨j, hj, hne⟩ := hpos
    refine lt_of_lt_of_le (lt_of_le_of_ne (h0 j) (Ne.symm hne)) ?_
    have : draw j ∈ (List.range M).map f := by
      refine List.mem_map.2 ⟨j, List.mem_range.2 (by omega), by simp [hf, hj]⟩
    exact List.single_le_sum hnn _ this
  have hget : ∀ j, j < M → ((List.range M).map f).getD j 0 = f j := by
    intro j hj
    simp [List.getD_eq_getElem?_getD, hj]
  have hrow : ((List.range M).map fun j => if j < d then ((List.range M).map f).getD j 0 /
      ((List.range M).map f).sum else ((List.range M).map f).getD j 0) =
      (List.range M).map fun j => f j / ((List.range M).map f).sum := by
    refine List.map_congr_left fun j hj => ?_
    rw [hget j (List.mem_range.1 hj)]
    split_ifs with h
    · rfl
    · simp [hf, h]
  refine ⟨_, by
    unfold probRow
    rw [if_neg (by omega)]
    dsimp only
    rw [if_neg (fun h => hsum.ne' h.2), hrow], by simp, ?_, ?_, ?_⟩
  · have : (List.range M).map (fun j => f j / ((List.range M).map f).sum) =
        ((List.range M).map f).map fun v => v / ((List.range M).map f).sum := by simp
    rw [this]
    have hdiv : ∀ (l : List Rat) (s : Rat), (l.map fun v => v / s).sum = l.sum / s := by
      intro l s
      induction l with
      | nil => simp
      | cons a l ih => simp only [List.map_cons, List.sum_cons, ih, add_div]
    rw [hdiv, div_self hsum.ne']
  · intro p hp
    obtain ⟨j, hj, rfl⟩ := List.mem_map.1 hp
    exact div_nonneg (hnn _ (List.mem_map_of_mem hj)) hsum.le
  · intro j hj
    by_cases h : j < M
    · simp [List.getD_eq_getElem?_getD, h, hf, Nat.not_lt.2 hj]
    · simp [List.getD_eq_getElem?_getD, h]

theorem mapM_ok {α β : Type} {f : α → Except Err β} {Q : α → β → Prop} : ∀ {l : List α},
    (∀ a ∈ l, ∃ b, f a = .ok b ∧ Q a b) → ∃ bs, l.mapM f = .ok bs ∧ List.Forall₂ Q l bs
  | [], _ => ⟨[], rfl, .nil⟩
  | a :: l, h => by
      obtain ⟨b, e, hb⟩ := h a (by simp)
      obtain ⟨bs, e', hbs⟩ := mapM_ok (l := l) (fun a h' => h a (by simp [h']))
      refine ⟨b :: bs, ?_, .cons hb hbs⟩
      rw [List.mapM_cons, e]
      show (do let bs ← l.mapM f; pure (b :: bs)) = _
      rw [e']
      rfl

theorem probMatrix_ok {M : Nat} {domains : List Nat} {draw : Nat → Nat → Rat}
    (hM : ∀ d ∈ domains, 0 < d ∧ d ≤ M) (h0 : ∀ i j, 0 ≤ draw i j)
    (hpos : ∀ i < domains.length, ∃ j < domains.getD i 0, draw i j ≠ 0) :
    ∃ rows, probMatrix M domains draw = .ok rows ∧ rows.length = domains.length ∧
      ∀ i < domains.length, (rows.getD i []).length = M ∧ (rows.getD i []).sum = 1 ∧
        (∀ p ∈ rows.getD i [], 0 ≤ p) ∧ ∀ j, domains.getD i 0 ≤ j → (rows.getD i []).getD j 0 = 0 := by
  obtain ⟨rows, e, hr⟩ := mapM_ok (l := List.range domains.length)
    (f := fun i => probRow M (domains.getD i 0) (draw i)) (Q := fun i row => row.length = M ∧ row.sum = 1 ∧
      (∀ p ∈ row, 0 ≤ p) ∧ ∀ j, domains.getD i 0 ≤ j → row.getD j 0 = 0) (by
    intro i hi
    have hi := List.mem_range.1 hi
    refine probRow_ok (hM _ ?_).2 (h0 i) (hpos i hi)
    rw [List.getD_eq_getElem?_getD, List.getElem?_eq_getElem hi]
    exact List.getElem_mem hi)
  have hl := hr.length_eq
  rw [List.length_range] at hl
  refine ⟨rows, e, hl.symm, fun i hi => ?_⟩
  have hi' : i < rows.length := by omega
  have := (List.forall₂_iff_get.1 hr).2 i (by simpa using hi) hi'
  simp only [List.get_eq_getElem, List.getElem_range] at this
  rw [List.getD_eq_getElem?_getD, List.getElem?_eq_getElem hi']
  exact this

end Tsl
end Teddy
