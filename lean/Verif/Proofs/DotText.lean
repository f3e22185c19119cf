import Verif.Proofs.Dot

/-! The printed text determines the graph. -/

namespace Teddy

open SM Spec

/-- Two texts that continue after the first character in `K`. -/
theorem cutK {K : Char → Bool} {k k' : Char} (hk : K k = true) (hk' : K k' = true) :
    ∀ {a b s t : List Char}, (∀ x ∈ a, K x = false) → (∀ x ∈ b, K x = false) →
      a ++ k :: s = b ++ k' :: t → a = b ∧ k :: s = k' :: t := by
  intro a
  induction a with
  | nil =>
      intro b s t _ hb h
      cases b with
      | nil => exact ⟨rfl, h⟩
      | cons y b =>
          simp only [List.nil_append, List.cons_append, List.cons.injEq] at h
          have := hb y (by simp)
          rw [← h.1, hk] at this
          cases this
  | cons x a ih =>
      intro b s t ha hb h
      cases b with
      | nil =>
          simp only [List.nil_append, List.cons_append, List.cons.injEq] at h
          have := ha x (by simp)
          rw [h.1, hk'] at this
          cases this
      | cons y b =>
          simp only [List.cons_append, List.cons.injEq] at h
          obtain ⟨h1, h2⟩ := ih (fun z hz => ha z (by simp [hz])) (fun z hz => hb z (by simp [hz])) h.2
          exact ⟨by rw [h.1, h1], h2⟩

/-- A separated and terminated list can be read back. -/
theorem enc_inj {K : Char → Bool} {k k' : Char} {sep term : List Char} (hk : K k = true) (hk' : K k' = true)
    (hne : ∀ u v, k :: sep ++ u ≠ k' :: term ++ v) :
    ∀ {l l' : List (List Char)} {s t : List Char}, l ≠ [] → l' ≠ [] → (∀ a ∈ l, ∀ x ∈ a, K x = false) →
      (∀ a ∈ l', ∀ x ∈ a, K x = false) →
      (k :: sep).intercalate l ++ (k' :: term ++ s) = (k :: sep).intercalate l' ++ (k' :: term ++ t) →
      l = l' ∧ s = t := by
  intro l
  induction l with
  | nil => intro l' s t h; exact absurd rfl h
  | cons a l ih =>
      intro l' s t _ hl' ha hb h
      cases l' with
      | nil => exact absurd rfl hl'
      | cons b l' =>
          have ha' := ha a (by simp)
          have hb' := hb b (by simp)
          cases l with
          | nil =>
              cases l' with
              | nil =>
                  simp only [List.intercalate_singleton, List.cons_append] at h
                  obtain ⟨h1, h2⟩ := cutK hk' hk' ha' hb' h
                  simp only [List.cons.injEq, true_and] at h2
                  exact ⟨by rw [h1], List.append_cancel_left h2⟩
              | cons b' l' =>
                  rw [List.intercalate_singleton, List.intercalate_cons_cons, List.append_assoc,
                    List.append_assoc, List.cons_append, List.cons_append] at h
                  obtain ⟨-, h2⟩ := cutK hk' hk ha' hb' h
                  exact absurd h2.symm (hne _ _)
          | cons a' l =>
              cases l' with
              | nil =>
                  rw [List.intercalate_singleton, List.intercalate_cons_cons, List.append_assoc,
                    List.append_assoc, List.cons_append, List.cons_append] at h
                  obtain ⟨-, h2⟩ := cutK hk hk' ha' hb' h
                  exact absurd h2 (hne _ _)
              | cons b' l' =>
                  rw [List.intercalate_cons_cons, List.intercalate_cons_cons, List.append_assoc,
                    List.append_assoc, List.append_assoc, List.append_assoc, List.cons_append,
                    List.cons_append] at h
                  obtain ⟨h1, h2⟩ := cutK hk hk ha' hb' h
                  simp only [List.cons.injEq, true_and] at h2
                  obtain ⟨h3, h4⟩ := ih (by simp) (by simp) (fun z hz => ha z (List.mem_cons_of_mem _ hz))
                    (fun z hz => hb z (List.mem_cons_of_mem _ hz)) (List.append_cancel_left h2)
                  exact ⟨by rw [h1, h3], h4⟩

/-- The same if the lists may be empty. -/
theorem enc_inj' {K : Char → Bool} {k k' : Char} {sep term : List Char} (hk : K k = true) (hk' : K k' = true)
    (hne : ∀ u v, k :: sep ++ u ≠ k' :: term ++ v)
    {l l' : List (List Char)} {s t : List Char} (ha : ∀ a ∈ l, a ≠ [] ∧ ∀ x ∈ a, K x = false)
    (hb : ∀ a ∈ l', a ≠ [] ∧ ∀ x ∈ a, K x = false)
    (h : (k :: sep).intercalate l ++ (k' :: term ++ s) = (k :: sep).intercalate l' ++ (k' :: term ++ t)) :
    l = l' ∧ s = t := by
  cases l with
  | nil =>
      cases l' with
      | nil => exact ⟨rfl, by simpa using h⟩
      | cons b l' =>
          have := enc_inj (l := [[]]) hk hk' hne (by simp) (by simp) (by simp) (fun a ha => (hb a ha).2)
            (by simpa using h)
          have h2 := this.1
          simp only [List.cons.injEq] at h2
          exact absurd h2.1.symm (hb b (by simp)).1
  | cons a l =>
      cases l' with
      | nil =>
          have := enc_inj (l' := [[]]) hk hk' hne (by simp) (by simp) (fun a h => (ha a h).2) (by simp)
            (by simpa using h)
          have h2 := this.1
          simp only [List.cons.injEq] at h2
          exact absurd h2.1 (ha a (by simp)).1
      | cons b l' =>
          exact enc_inj hk hk' hne (by simp) (by simp) (fun a h => (ha a h).2) (fun a h => (hb a h).2) h

theorem map_inj_on {α β : Type} {f : α → β} : ∀ {l l' : List α},
    (∀ a ∈ l, ∀ b ∈ l', f a = f b → a = b) → l.map f = l'.map f → l = l' := by
  intro l
  induction l with
  | nil => intro l' _ h; cases l' with
    | nil => rfl
    | cons b l' => simp at h
  | cons a l ih =>
      intro l' hf h
      cases l' with
      | nil => simp at h
      | cons b l' =>
          simp only [List.map_cons, List.cons.injEq] at h
          rw [hf a (by simp) b (by simp) h.1,
            ih (fun x hx y hy => hf x (by simp [hx]) y (by simp [hy])) h.2]

theorem digits_of_nat {n : Nat} {x : Char} (h : x ∈ (toString n : String).toList) : x.isDigit = true := by
  have h' : x ∈ n.repr.toList := h
  rw [Nat.toList_repr] at h'
  exact Nat.isDigit_of_mem_toDigits (by decide) (by decide) h'

theorem nat_ne_nil {n : Nat} : (toString n : String).toList ≠ [] := by
  have : n.repr.toList ≠ [] := by
    rw [Nat.toList_repr]
    intro h
    have := Nat.length_toDigits_pos (b := 10) (n := n)
    rw [h] at this
    cases this
  exact this

/-- A number and what follows it. -/
theorem nat_cut {n m : Nat} {k : Char} (hk : k.isDigit = false) {s t : List Char}
    (h : (toString n : String).toList ++ k :: s = (toString m : String).toList ++ k :: t) : n = m ∧ s = t := by
  obtain ⟨h1, h2⟩ := cutK (K := fun x => !x.isDigit) (by simp [hk]) (by simp [hk])
    (fun x hx => by simp [digits_of_nat hx]) (fun x hx => by simp [digits_of_nat hx]) h
  simp only [List.cons.injEq, true_and] at h2
  exact ⟨toString_nat_inj (String.toList_inj.1 h1), h2⟩

namespace Dot

/-- Labels and attributes do not contain the characters that end them. -/
structure Plain (g : Dot) : Prop where
  labels : ∀ t ∈ g.nodes, ∀ x ∈ t.2.1.toList, x ≠ '"' ∧ x ≠ '\n'
  attrs : ∀ a ∈ g.arcs, ∀ x ∈ a.2.2.toList, x ≠ '\n'

def nodeLine (t : Nat × String × Nat) : String :=
  toString t.1 ++ " [label = \"" ++ t.2.1 ++ "\", tooltip = \"" ++ toString t.2.2 ++ "\"];"

def arcLine (a : Nat × Nat × String) : String :=
  toString a.1 ++ " -> " ++ toString a.2.1 ++ " [" ++ a.2.2 ++ "];"

theorem nodeLine_inj {t u : Nat × String × Nat} (ht : ∀ x ∈ t.2.1.toList, x ≠ '"')
    (hu : ∀ x ∈ u.2.1.toList, x ≠ '"') (h : nodeLine t = nodeLine u) : t = u := by
  have h := congrArg String.toList h
  unfold nodeLine at h
  simp only [String.toList_append, List.append_assoc] at h
  obtain ⟨h1, h2⟩ := nat_cut (k := ' ') (by decide) h
  have h3 := List.append_cancel_left (as := "[label = \"".toList) h2
  obtain ⟨h4, h5⟩ := cutK (K := fun x => x == '"') (k := '"') (k' := '"') (by decide) (by decide)
    (fun x hx => by simpa using ht x hx) (fun x hx => by simpa using hu x hx) h3
  have h6 := List.append_cancel_left (as := "\", tooltip = \"".toList) h5
  obtain ⟨h7, -⟩ := nat_cut (k := '"') (by decide) h6
  exact Prod.ext h1 (Prod.ext (String.toList_inj.1 h4) h7)

theorem arcLine_inj {t u : Nat × Nat × String} (h : arcLine t = arcLine u) : t = u := by
  have h := congrArg String.toList h
  unfold arcLine at h
  simp only [String.toList_append, List.append_assoc] at h
  obtain ⟨h1, h2⟩ := nat_cut (k := ' ') (by decide) h
  have h3 := List.append_cancel_left (as := "-> ".toList) h2
  obtain ⟨h4, h5⟩ := nat_cut (k := ' ') (by decide) h3
  have h6 := List.append_cancel_left (as := "[".toList) h5
  have h7 := List.append_cancel_right h6
  exact Prod.ext h1 (Prod.ext h4 (String.toList_inj.1 h7))

theorem text_toList (g : Dot) : ∃ rest, g.text.toList =
    "digraph DD {\n    node [shape = square] ".toList ++
    ([' '].intercalate (g.squares.map fun n => (toString n : String).toList) ++ (';' :: [] ++
    ("\n    node [shape = circle];\n\n    ".toList ++
    ("\n    ".toList.intercalate (g.nodes.map fun t => (nodeLine t).toList) ++ ('\n' :: ['\n'] ++
    ("    ".toList ++
    ("\n    ".toList.intercalate (g.arcs.map fun a => (arcLine a).toList) ++ ('\n' :: ['\n'] ++ rest)))))))) := by
  refine ⟨("".intercalate ((g.ranks.filter fun r => !r.isEmpty).map fun r =>
    "    { rank = same; " ++ " ".intercalate (r.map fun id => toString id ++ ";") ++ " }\n")).toList ++
    "\n}\n".toList, ?_⟩
  unfold text
  simp only [String.toList_append, String.toList_intercalate, List.map_map, List.append_assoc]
  rfl

/-- The text determines the nodes, the squares and the arcs. -/
theorem text_inj {g g' : Dot} (hg : g.Plain) (hg' : g'.Plain) (h : g.text = g'.text) :
    g.nodes = g'.nodes ∧ g.squares = g'.squares ∧ g.arcs = g'.arcs := by
  obtain ⟨r, e⟩ := text_toList g
  obtain ⟨r', e'⟩ := text_toList g'
  rw [h] at e
  have h1 := List.append_cancel_left (e.symm.trans e')
  obtain ⟨a1, h2⟩ := enc_inj' (K := fun x => x == ' ' || x == ';') (by decide) (by decide) (by simp)
    (by
      intro a ha
      obtain ⟨n, _, rfl⟩ := List.mem_map.1 ha
      refine ⟨nat_ne_nil, fun x hx => ?_⟩
      have := digits_of_nat hx
      rw [Bool.or_eq_false_iff, beq_eq_false_iff_ne, beq_eq_false_iff_ne]
      constructor <;> rintro rfl <;> revert this <;> decide)
    (by
      intro a ha
      obtain ⟨n, _, rfl⟩ := List.mem_map.1 ha
      refine ⟨nat_ne_nil, fun x hx => ?_⟩
      have := digits_of_nat hx
      rw [Bool.or_eq_false_iff, beq_eq_false_iff_ne, beq_eq_false_iff_ne]
      constructor <;> rintro rfl <;> revert this <;> decide) h1
  have nodeOK : ∀ {g : Dot}, g.Plain → ∀ a ∈ g.nodes.map fun t => (nodeLine t).toList,
      a ≠ [] ∧ ∀ x ∈ a, (fun x => x == '\n') x = false := by
    intro g hg a ha
    obtain ⟨t, ht, rfl⟩ := List.mem_map.1 ha
    have hd : ∀ n : Nat, '\n' ∉ (toString n : String).toList := fun n hn => absurd (digits_of_nat hn) (by decide)
    have hl : '\n' ∉ t.2.1.toList := fun hn => (hg.labels t ht _ hn).2 rfl
    refine ⟨?_, ?_⟩
    · intro h0
      unfold nodeLine at h0
      simp at h0
    · intro x hx
      rw [beq_eq_false_iff_ne]
      rintro rfl
      unfold nodeLine at hx
      simp only [String.toList_append, List.mem_append] at hx
      rcases hx with ((((hx | hx) | hx) | hx) | hx) | hx
      · exact hd _ hx
      · revert hx; decide
      · exact hl hx
      · revert hx; decide
      · exact hd _ hx
      · revert hx; decide
  have arcOK : ∀ {g : Dot}, g.Plain → ∀ a ∈ g.arcs.map fun t => (arcLine t).toList,
      a ≠ [] ∧ ∀ x ∈ a, (fun x => x == '\n') x = false := by
    intro g hg a ha
    obtain ⟨t, ht, rfl⟩ := List.mem_map.1 ha
    have hd : ∀ n : Nat, '\n' ∉ (toString n : String).toList := fun n hn => absurd (digits_of_nat hn) (by decide)
    have hl : '\n' ∉ t.2.2.toList := fun hn => hg.attrs t ht _ hn rfl
    refine ⟨?_, ?_⟩
    · intro h0
      unfold arcLine at h0
      simp at h0
    · intro x hx
      rw [beq_eq_false_iff_ne]
      rintro rfl
      unfold arcLine at hx
      simp only [String.toList_append, List.mem_append] at hx
      rcases hx with ((((hx | hx) | hx) | hx) | hx) | hx
      · exact hd _ hx
      · revert hx; decide
      · exact hd _ hx
      · revert hx; decide
      · exact hl hx
      · revert hx; decide
  have h3 := List.append_cancel_left h2
  obtain ⟨a2, h4⟩ := enc_inj' (K := fun x => x == '\n') (k := '\n') (sep := [' ', ' ', ' ', ' ']) (by decide) (by decide) (by simp)
    (nodeOK hg) (nodeOK hg') h3
  have h5 := List.append_cancel_left h4
  obtain ⟨a3, -⟩ := enc_inj' (K := fun x => x == '\n') (k := '\n') (sep := [' ', ' ', ' ', ' ']) (by decide) (by decide) (by simp)
    (arcOK hg) (arcOK hg') h5
  refine ⟨map_inj_on (fun t ht u hu e => nodeLine_inj (fun x hx => (hg.labels t ht x hx).1)
    (fun x hx => (hg'.labels u hu x hx).1) (String.toList_inj.1 e)) a2,
    map_inj_on (fun n _ m _ e => toString_nat_inj (String.toList_inj.1 e)) a1,
    map_inj_on (fun t _ u _ e => arcLine_inj (String.toList_inj.1 e)) a3⟩

end Dot

theorem dotOf_plain {c : Cfg} {S : Mgr} {binary : Bool} {vs : List Ptr} : (dotOf c S binary vs).Plain where
  labels := by
    intro t ht x hx
    obtain ⟨p, _, rfl⟩ := mem_nodes.1 ht
    cases hk : S.kind p with
    | leaf v =>
        simp only [makeLabel, hk, Dot.valueText] at hx
        split at hx
        · revert hx; simp only [show "*".toList = ['*'] from rfl, List.mem_singleton]; rintro rfl; decide
        · cases v with
          | ofNat n =>
              have := digits_of_nat (n := n) hx
              constructor <;> rintro rfl <;> revert this <;> decide
          | negSucc n =>
              have hx' : x ∈ ("-" ++ (n + 1).repr).toList := hx
              rw [String.toList_append, List.mem_append] at hx'
              rcases hx' with hx' | hx'
              · revert hx'; simp only [show "-".toList = ['-'] from rfl, List.mem_singleton]; rintro rfl; decide
              · have := digits_of_nat (n := n + 1) hx'
                constructor <;> rintro rfl <;> revert this <;> decide
    | inner i ss =>
        simp only [makeLabel, hk, Dot.varText, String.toList_append, List.mem_append] at hx
        rcases hx with hx | hx
        · revert hx; simp only [show "x".toList = ['x'] from rfl, List.mem_singleton]; rintro rfl; decide
        · have := digits_of_nat hx
          constructor <;> rintro rfl <;> revert this <;> decide
  attrs := by
    intro a ha x hx
    obtain ⟨p, _, i, ss, _, k, q, _, rfl⟩ := mem_arcs.1 ha
    rintro rfl
    dsimp only at hx
    unfold Dot.arcText at hx
    split at hx
    · split at hx <;> revert hx <;> decide
    · rw [String.toList_append, List.mem_append] at hx
      rcases hx with hx | hx
      · revert hx; decide
      · exact absurd (digits_of_nat hx) (by decide)

theorem follows_congr {g g' : Dot} (h1 : g.nodes = g'.nodes) (h2 : g.squares = g'.squares) (h3 : g.arcs = g'.arcs)
    {binary : Bool} {x : Asg} {id : Nat} {l : String} (h : g.Follows binary x id l) : g'.Follows binary x id l := by
  induction h with
  | square hn hs => exact .square (h1 ▸ hn) (h2 ▸ hs)
  | arc hn hs ha _ ih => exact .arc (h1 ▸ hn) (h2 ▸ hs) (h3 ▸ ha) ih

theorem ev_nonneg {c : Cfg} {ext : Ptr → Nat} {S : Mgr} (h : Inv c ext [] S) {x : Asg} {p : Ptr} {v : Int}
    (hp : S.used p = true) (he : Ev S.kind x p v) : 0 ≤ v := by
  induction he with
  | @leaf p v hk =>
      by_cases hv : v = Undefined
      · rw [hv]; decide
      · obtain ⟨n, rfl, _⟩ := leaf_place h hp hk hv
        exact Int.natCast_nonneg n
  | @inner p q i ss v hk hq _ ih =>
      exact ih ((h.sons p i ss hp hk).2.2 q (List.mem_of_getElem? hq))

end Teddy
