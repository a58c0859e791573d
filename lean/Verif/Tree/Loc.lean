import Verif.Tree.Value
/-!
# The local structure invariant of stored trees and its consequences
-/
namespace Nimiq.Tree

/-- `V` stores the branch with children `ch` at `k`. -/
def Br (V : View) (k : Nibbles) (ch : Nib → Child) : Prop := V k = some (.branch k ch)

/-- The local invariant: properties of single nodes and of single links. -/
structure Loc (V : View) : Prop where
  root : ∃ ch, Br V [] ch
  leaf : ∀ {k p v}, V k = some (.leaf p v) → p = k ∧ k.length = 40 ∧ v ≠ []
  branch : ∀ {k p ch}, V k = some (.branch p ch) → p = k ∧ k.length < 40
  child : ∀ {k ch i}, Br V k ch → (ch i).exist = true → (∃ s, (ch i).suffix = i :: s) ∧ V (k ++ (ch i).suffix) ≠ none
  two : ∀ {k ch}, Br V k ch → k ≠ [] → ∃ i j, i ≠ j ∧ (ch i).exist = true ∧ (ch j).exist = true
  parent : ∀ {c}, V c ≠ none → c ≠ [] → ∃ k ch i, Br V k ch ∧ (ch i).exist = true ∧ c = k ++ (ch i).suffix

/-- There is a link from `k` to `c`. -/
def Link (V : View) (k c : Nibbles) : Prop := ∃ ch i s, Br V k ch ∧ (ch i).exist = true ∧ (ch i).suffix = i :: s ∧
  c = k ++ i :: s

theorem Loc.link {V k ch i} (L : Loc V) (h : Br V k ch) (hi : (ch i).exist = true) : Link V k (k ++ (ch i).suffix) := by
  obtain ⟨⟨s, hs⟩, _⟩ := L.child h hi
  exact ⟨ch, i, s, h, hi, hs, by rw [hs]⟩

theorem Loc.parentLink {V c} (L : Loc V) (h : V c ≠ none) (hc : c ≠ []) : ∃ k, Link V k c := by
  obtain ⟨k, ch, i, h1, h2, h3⟩ := L.parent h hc
  exact ⟨k, h3 ▸ L.link h1 h2⟩

theorem Br.unique {V k ch ch'} (h : Br V k ch) (h' : Br V k ch') : ch = ch' := by
  unfold Br at h h'; rw [h] at h'; simpa using h'

theorem Link.target {V k c} (L : Loc V) (h : Link V k c) : V c ≠ none := by
  obtain ⟨ch, i, s, h1, h2, h3, rfl⟩ := h
  have := (L.child h1 h2).2
  rwa [h3] at this

theorem Link.pre {V k c} (h : Link V k c) : k <+: c := by
  obtain ⟨ch, i, s, h1, h2, h3, rfl⟩ := h
  exact List.prefix_append _ _

theorem Link.lt {V k c} (h : Link V k c) : k.length < c.length := by
  obtain ⟨ch, i, s, h1, h2, h3, rfl⟩ := h
  simp

/-- Prefixes of a common list are comparable. -/
theorem pre_cases {a b q : Nibbles} (ha : a <+: q) (hb : b <+: q) :
    a = b ∨ (a <+: b ∧ a.length < b.length) ∨ (b <+: a ∧ b.length < a.length) := by
  rcases Nat.lt_trichotomy a.length b.length with h | h | h
  · exact .inr (.inl ⟨List.prefix_of_prefix_length_le ha hb (Nat.le_of_lt h), h⟩)
  · exact .inl ((List.prefix_of_prefix_length_le ha hb (Nat.le_of_eq h)).eq_of_length h)
  · exact .inr (.inr ⟨List.prefix_of_prefix_length_le hb ha (Nat.le_of_lt h), h⟩)

theorem pre_len_eq {a b q : Nibbles} (ha : a <+: q) (hb : b <+: q) (h : a.length = b.length) : a = b :=
  (List.prefix_of_prefix_length_le ha hb (Nat.le_of_eq h)).eq_of_length h

/-- Two links from the same branch whose targets agree at the next nibble have the same target. -/
theorem Link.same {V k c c' : _} (h : Link V k c) (h' : Link V k c') {i : Nib} (hc : k ++ [i] <+: c)
    (hc' : k ++ [i] <+: c') : c = c' := by
  obtain ⟨ch, j, s, h1, h2, h3, rfl⟩ := h
  obtain ⟨ch', j', s', h1', h2', h3', rfl⟩ := h'
  have e : ∀ (j : Nib) s, k ++ [i] <+: k ++ j :: s → i = j := by
    rintro j s ⟨t, ht⟩
    simp only [List.append_assoc, List.append_cancel_left_eq, List.singleton_append, List.cons.injEq] at ht
    exact ht.1
  have e1 := e _ _ hc
  have e2 := e _ _ hc'
  subst e1; subst e2
  have := h1.unique h1'
  subst this
  rw [h3] at h3'
  rw [h3']

/-- The nibble after a strict prefix. -/
theorem pre_next {k c : Nibbles} (h : k <+: c) (hl : k.length < c.length) : ∃ i, k ++ [i] <+: c := by
  obtain ⟨t, rfl⟩ := h
  cases t with
  | nil => simp at hl
  | cons i t => exact ⟨i, ⟨t, by simp⟩⟩

/-- No node lies strictly inside a link. -/
theorem no_inside {V : View} (L : Loc V) : ∀ (n : Nat) (k c q : Nibbles), q.length = n → Link V k c → V q ≠ none →
    k <+: q → k.length < q.length → q <+: c → q.length < c.length → False := by
  intro n
  induction n using Nat.strongRecOn with
  | _ n ih =>
    intro k c q hn hl hq h1 h2 h3 h4
    obtain ⟨k', hl'⟩ := L.parentLink hq (by intro e; subst e; simp at h2)
    have hkc : k' <+: q := hl'.pre
    rcases pre_cases hkc h1 with e | ⟨e1, e2⟩ | ⟨e1, e2⟩
    · subst e
      obtain ⟨i, hi⟩ := pre_next h1 h2
      have := hl.same hl' (hi.trans h3) hi
      subst this; exact Nat.lt_irrefl _ h4
    · -- k' < k : k inside k' → q
      obtain ⟨ch, i, s, hb, _⟩ := hl
      have hk : V k ≠ none := by rw [hb]; simp
      exact ih k.length (by omega) k' q k rfl hl' hk e1 e2 h1 h2
    · -- k < k' < c
      obtain ⟨ch, i, s, hb, _⟩ := hl'
      have hk : V k' ≠ none := by rw [hb]; simp
      have := (show Link V k' q from ⟨ch, i, s, hb, ‹_›⟩).lt
      exact ih k'.length (by omega) k c k' rfl hl hk e1 e2 (hkc.trans h3) (by omega)

theorem Link.noInside {V : View} {k c q : Nibbles} (L : Loc V) (hl : Link V k c) (hq : V q ≠ none)
    (h1 : k <+: q) (h2 : k.length < q.length) (h3 : q <+: c) : q = c := by
  rcases Nat.lt_or_ge q.length c.length with h | h
  · exact (no_inside L _ k c q rfl hl hq h1 h2 h3 h).elim
  · exact h3.eq_of_length (Nat.le_antisymm h3.length_le h)

/-- Parents are unique. -/
theorem Link.parent_unique {V : View} {k k' c : Nibbles} (L : Loc V) (h : Link V k c) (h' : Link V k' c) : k = k' := by
  rcases pre_cases h.pre h'.pre with e | ⟨e1, e2⟩ | ⟨e1, e2⟩
  · exact e
  · obtain ⟨ch, i, s, hb, _⟩ := id h'
    have := h.noInside L (q := k') (by rw [hb]; simp) e1 e2 h'.pre
    subst this; exact absurd h'.lt (Nat.lt_irrefl _)
  · obtain ⟨ch, i, s, hb, _⟩ := id h
    have := h'.noInside L (q := k) (by rw [hb]; simp) e1 e2 h.pre
    subst this; exact absurd h.lt (Nat.lt_irrefl _)

/-- Routing: below every branch that lies above a node there is a link towards that node. -/
theorem route {V : View} (L : Loc V) : ∀ (n : Nat) (k q : Nibbles) (ch : Nib → Child), q.length = n → Br V k ch →
    V q ≠ none → k <+: q → k.length < q.length → ∃ c, Link V k c ∧ c <+: q := by
  intro n
  induction n using Nat.strongRecOn with
  | _ n ih =>
    intro k q ch hn hb hq h1 h2
    obtain ⟨k', hl'⟩ := L.parentLink hq (by intro e; subst e; simp at h2)
    rcases pre_cases hl'.pre h1 with e | ⟨e1, e2⟩ | ⟨e1, e2⟩
    · subst e; exact ⟨q, hl', List.prefix_refl _⟩
    · have := hl'.noInside L (q := k) (by rw [hb]; simp) e1 e2 h1
      subst this; exact absurd h2 (Nat.lt_irrefl _)
    · obtain ⟨ch', i, s, hb', _⟩ := id hl'
      obtain ⟨c, hc1, hc2⟩ := ih k'.length (by have := hl'.lt; omega) k k' ch rfl hb (by rw [hb']; simp) e1 e2
      exact ⟨c, hc1, hc2.trans hl'.pre⟩

theorem Br.route {V : View} {k q : Nibbles} {ch : Nib → Child} (L : Loc V) (hb : Br V k ch)
    (hq : V q ≠ none) (h1 : k <+: q) (h2 : k.length < q.length) : ∃ c, Link V k c ∧ c <+: q :=
  Tree.route L _ k q ch rfl hb hq h1 h2

/-- A node with a proper extension that is a node is a branch. -/
theorem Loc.node_cases {V : View} {k : Nibbles} (L : Loc V) (h : V k ≠ none) :
    (∃ v, V k = some (.leaf k v) ∧ k.length = 40 ∧ v ≠ []) ∨ (∃ ch, Br V k ch ∧ k.length < 40) := by
  cases hk : V k with
  | none => exact absurd hk h
  | some o =>
    cases o with
    | leaf p v =>
      obtain ⟨rfl, h2, h3⟩ := L.leaf hk
      exact .inl ⟨v, rfl, h2, h3⟩
    | branch p ch =>
      obtain ⟨rfl, h2⟩ := L.branch hk
      exact .inr ⟨ch, hk, h2⟩

theorem Loc.len_le {V : View} {k : Nibbles} (L : Loc V) (h : V k ≠ none) : k.length ≤ 40 := by
  rcases L.node_cases h with ⟨_, _, h, _⟩ | ⟨_, _, h⟩ <;> omega

/-! ## Shapes: everything but the cached hashes -/

def sameShape : Option NodeObj → Option NodeObj → Prop
  | none, none => True
  | some (.leaf p v), some (.leaf p' v') => p = p' ∧ v = v'
  | some (.branch p ch), some (.branch p' ch') => p = p' ∧ ∀ i, (ch i).exist = (ch' i).exist ∧ (ch i).suffix = (ch' i).suffix
  | _, _ => False

theorem sameShape.refl (o) : sameShape o o := by
  cases o with
  | none => trivial
  | some o => cases o <;> simp [sameShape]

theorem sameShape.symm {o o'} (h : sameShape o o') : sameShape o' o := by
  cases o with
  | none => cases o' <;> simp_all [sameShape]
  | some o => cases o' with
    | none => cases o <;> simp_all [sameShape]
    | some o' => cases o <;> cases o' <;> simp_all [sameShape]

theorem sameShape.trans {o o' o''} (h : sameShape o o') (h' : sameShape o' o'') : sameShape o o'' := by
  cases o with
  | none => cases o' with
    | none => exact h'
    | some o' => cases o' <;> simp [sameShape] at h
  | some o => cases o' with
    | none => cases o <;> simp [sameShape] at h
    | some o' => cases o'' with
      | none => cases o' <;> simp [sameShape] at h'
      | some o'' => cases o <;> cases o' <;> cases o'' <;> simp_all [sameShape]

/-- Two views differ in cached hashes only. -/
def Shape (V V' : View) : Prop := ∀ k, sameShape (V k) (V' k)

theorem Shape.symm {V V'} (h : Shape V V') : Shape V' V := fun k => (h k).symm
theorem Shape.trans {V V' V''} (h : Shape V V') (h' : Shape V' V'') : Shape V V'' := fun k => (h k).trans (h' k)
theorem Shape.refl (V) : Shape V V := fun k => sameShape.refl _

theorem Shape.leaf {V V' k p v} (h : Shape V V') (hk : V k = some (.leaf p v)) : V' k = some (.leaf p v) := by
  have := h k
  rw [hk] at this
  cases h' : V' k with
  | none => simp [h', sameShape] at this
  | some o => cases o <;> simp_all [sameShape]

theorem Shape.branch {V V' k p ch} (h : Shape V V') (hk : V k = some (.branch p ch)) :
    ∃ ch', V' k = some (.branch p ch') ∧ ∀ i, (ch i).exist = (ch' i).exist ∧ (ch i).suffix = (ch' i).suffix := by
  have := h k
  rw [hk] at this
  cases h' : V' k with
  | none => simp [h', sameShape] at this
  | some o =>
    cases o with
    | leaf _ _ => simp [h', sameShape] at this
    | branch p' ch' =>
      rw [h'] at this
      obtain ⟨rfl, h2⟩ := this
      exact ⟨ch', rfl, h2⟩

theorem Shape.none {V V' : View} {k} (h : Shape V V') (hk : V k = none) : V' k = none := by
  have := h k
  rw [hk] at this
  cases h' : V' k with
  | none => rfl
  | some o => cases o <;> simp [h', sameShape] at this

theorem Shape.ne_none {V V' : View} {k} (h : Shape V V') (hk : V k ≠ .none) : V' k ≠ .none :=
  fun e => hk (h.symm.none e)

theorem Loc.shape {V V'} (L : Loc V) (h : Shape V V') : Loc V' where
  root := by
    obtain ⟨ch, hc⟩ := L.root
    obtain ⟨ch', h', _⟩ := h.branch hc
    exact ⟨ch', h'⟩
  leaf hk := L.leaf (h.symm.leaf hk)
  branch hk := by
    obtain ⟨ch', h', _⟩ := h.symm.branch hk
    exact L.branch h'
  child {k ch i} hk hi := by
    obtain ⟨ch', h', he⟩ := h.symm.branch hk
    have := L.child h' (by rw [← (he i).1]; exact hi)
    rw [(he i).2]
    exact ⟨this.1, h.ne_none this.2⟩
  two {k ch} hk hne := by
    obtain ⟨ch', h', he⟩ := h.symm.branch hk
    obtain ⟨i, j, h1, h2, h3⟩ := L.two h' hne
    exact ⟨i, j, h1, by rw [(he i).1]; exact h2, by rw [(he j).1]; exact h3⟩
  parent {c} hc hne := by
    obtain ⟨k, ch, i, h1, h2, h3⟩ := L.parent (h.symm.ne_none hc) hne
    obtain ⟨ch', h', he⟩ := h.branch h1
    exact ⟨k, ch', i, h', by rw [← (he i).1]; exact h2, by rw [← (he i).2]; exact h3⟩

theorem Link.shape {V V' k c} (h : Shape V V') (hl : Link V k c) : Link V' k c := by
  obtain ⟨ch, i, s, h1, h2, h3, h4⟩ := hl
  obtain ⟨ch', h', he⟩ := h.branch h1
  exact ⟨ch', i, s, h', by rw [← (he i).1]; exact h2, by rw [← (he i).2]; exact h3, h4⟩

end Nimiq.Tree
