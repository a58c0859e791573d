import Verif.Tree.SliceModel
import Verif.Tree.Props
/-!
# Slice aliasing in tree.go cannot be observed

Simulation of the slice level functions by the view functions of `Value.lean`.
-/
namespace Nimiq.Tree

/-! ## Reading slices -/

namespace SWorld
variable {w w' : SWorld}

@[simp] theorem rd_length (w : SWorld) (s : Slice) : (w.rd s).length = s.len := by simp [rd]

@[simp] theorem rdv_length (w : SWorld) (s : Slice) : (w.rdv s).length = s.len := by simp [rdv]

theorem rd_getElem (w : SWorld) (s : Slice) {i : Nat} (h : i < (w.rd s).length) : (w.rd s)[i] = w.nib s i := by
  simp [rd]

/-- Two reads agree if the arrays agree on the slice. -/
theorem rd_congr {s : Slice} (h : ∀ x, s.off ≤ x → x < s.off + s.len → w'.arrs s.arr x = w.arrs s.arr x) :
    w'.rd s = w.rd s := by
  unfold rd
  apply List.map_congr_left
  intro i hi
  rw [List.mem_range] at hi
  exact h _ (by omega) (by omega)

theorem rd_eq_nil {s : Slice} : w.rd s = [] ↔ s.len = 0 := by
  rw [← List.length_eq_zero_iff, rd_length]

theorem rd_drop (w : SWorld) (s : Slice) (n : Nat) :
    (w.rd s).drop n = w.rd ⟨s.arr, s.off + n, s.len - n, s.cap - n⟩ := by
  apply List.ext_getElem
  · simp
  · intro i h1 h2
    rw [List.getElem_drop, rd_getElem, rd_getElem]
    unfold nib
    simp only [Nat.add_assoc]

theorem rd_take (w : SWorld) (s : Slice) {n : Nat} (h : n ≤ s.len) : (w.rd s).take n = w.rd (s.upto n) := by
  apply List.ext_getElem
  · simp [Slice.upto, h]
  · intro i h1 h2
    rw [List.getElem_take, rd_getElem, rd_getElem]
    rfl

theorem rd_cons {s : Slice} (h : s.len ≠ 0) : ∃ t, w.rd s = w.nib s 0 :: t := by
  have hl := rd_length w s
  cases hr : w.rd s with
  | nil => rw [hr] at hl; exact absurd hl.symm h
  | cons a t =>
    have h0 : 0 < (w.rd s).length := by omega
    have h1 := rd_getElem w s h0
    simp only [hr, List.getElem_cons_zero] at h1
    exact ⟨t, by rw [h1]⟩

theorem drop_nib {s : Slice} {n : Nat} (h : n < s.len) : ∃ t, (w.rd s).drop n = w.nib s n :: t := by
  rw [rd_drop]
  obtain ⟨t, ht⟩ := rd_cons (w := w) (s := ⟨s.arr, s.off + n, s.len - n, s.cap - n⟩) (by simp; omega)
  exact ⟨t, by rw [ht]; rfl⟩

end SWorld

theorem from_eq {s : Slice} {n : Nat} (h : n ≤ s.len) : s.from n = some ⟨s.arr, s.off + n, s.len - n, s.cap - n⟩ := by
  simp [Slice.from, h]

/-! ## `append` -/

variable {grow : Nat → Nat → Nat → Nat}

theorem sAppend_len (w : SWorld) (s t : Slice) : (sAppend grow w s t).1.len = s.len + t.len := by
  unfold sAppend; split <;> rfl

theorem sAppend_rd (w : SWorld) (s t : Slice) :
    (sAppend grow w s t).2.rd (sAppend grow w s t).1 = w.rd s ++ w.rd t := by
  apply List.ext_getElem
  · simp [sAppend_len]
  · intro i h1 h2
    have hi : i < s.len + t.len := by simpa [sAppend_len] using h1
    rw [SWorld.rd_getElem, List.getElem_append]
    by_cases h : i < s.len
    · rw [dif_pos (by simpa using h), SWorld.rd_getElem]
      unfold sAppend
      split
      · simp only [SWorld.nib]
        rw [if_neg (by omega)]
      · simp only [SWorld.nib, if_true, Nat.zero_add, h]
    · rw [dif_neg (by simpa using h), SWorld.rd_getElem]
      unfold sAppend
      split
      · simp only [SWorld.nib, SWorld.rd_length]
        rw [if_pos ⟨trivial, by omega, by omega⟩]
        congr 1; omega
      · simp only [SWorld.nib, if_true, Nat.zero_add, h, if_false, hi, SWorld.rd_length]

/-- What `append` leaves alone. -/
theorem sAppend_frame (w : SWorld) (s t : Slice) {a x : Nat} (ha : a < w.nextArr)
    (h : s.cap < s.len + t.len ∨ a ≠ s.arr ∨ x < s.off + s.len) : (sAppend grow w s t).2.arrs a x = w.arrs a x := by
  unfold sAppend
  split
  · simp only
    rw [if_neg]
    rintro ⟨h1, h2, h3⟩
    rcases h with h | h | h
    · omega
    · exact h h1
    · omega
  · simp only
    rw [if_neg (by omega)]

theorem sAppend_same (w : SWorld) (s t : Slice) :
    (sAppend grow w s t).2.heap = w.heap ∧ (sAppend grow w s t).2.store = w.store ∧
    (sAppend grow w s t).2.next = w.next ∧ (sAppend grow w s t).2.vals = w.vals ∧
    w.nextArr ≤ (sAppend grow w s t).2.nextArr := by
  unfold sAppend; split <;> simp

theorem sAppend_arr (w : SWorld) (s t : Slice) (hs : s.arr < w.nextArr) :
    (sAppend grow w s t).1.arr < (sAppend grow w s t).2.nextArr ∧
    ((sAppend grow w s t).1.arr = s.arr ∧ (sAppend grow w s t).1.off = s.off ∧ s.len + t.len ≤ s.cap ∨
     (sAppend grow w s t).1.arr = w.nextArr) := by
  unfold sAppend; split
  next h => exact ⟨hs, .inl ⟨rfl, rfl, h⟩⟩
  · exact ⟨Nat.lt_succ_self _, .inr rfl⟩

/-! ## `KeyToNibbles` and `CommonPrefix` -/

theorem sKey_rd (w : SWorld) (a : Addr) : (sKey w a).2.rd (sKey w a).1 = keyNibs a := by
  have hl := keyNibs_length a
  apply List.ext_getElem
  · rw [SWorld.rd_length, hl]; rfl
  · intro i h1 h2
    rw [SWorld.rd_getElem]
    simp only [sKey, SWorld.nib, if_true, Nat.zero_add]
    rw [List.getD_eq_getElem?_getD, List.getElem?_eq_getElem h2]; rfl

theorem sCommonLoop_eq (w : SWorld) (a b : Slice) : ∀ (n i : Nat) (c : Slice), i + n = a.len →
    sCommonLoop w a b n i c =
      if (commonPrefix ((w.rd a).drop i) ((w.rd b).drop i)).length = 0 then c
      else a.upto (i + (commonPrefix ((w.rd a).drop i) ((w.rd b).drop i)).length) := by
  intro n
  induction n with
  | zero =>
    intro i c h
    have : (w.rd a).drop i = [] := by rw [List.drop_eq_nil_iff, SWorld.rd_length]; omega
    simp [sCommonLoop, this, commonPrefix]
  | succ n ih =>
    intro i c h
    have hi : i < a.len := by omega
    unfold sCommonLoop
    by_cases hb : b.len ≤ i
    · have : (w.rd b).drop i = [] := by rw [List.drop_eq_nil_iff, SWorld.rd_length]; omega
      rw [if_pos hb, this]
      have : ∀ l : Nibbles, commonPrefix l [] = [] := by intro l; cases l <;> rfl
      rw [this]; rfl
    · rw [if_neg hb]
      have hb' : i < b.len := by omega
      have e1 : (w.rd a).drop i = w.nib a i :: (w.rd a).drop (i + 1) := by
        rw [List.drop_eq_getElem_cons (by simpa using hi), SWorld.rd_getElem]
      have e2 : (w.rd b).drop i = w.nib b i :: (w.rd b).drop (i + 1) := by
        rw [List.drop_eq_getElem_cons (by simpa using hb'), SWorld.rd_getElem]
      rw [e1, e2]
      simp only [commonPrefix]
      by_cases he : w.nib a i = w.nib b i
      · simp only [if_pos he, ih (i + 1) _ (show i + 1 + n = a.len by omega)]
        simp only [List.length_cons, Nat.add_eq_zero_iff, Nat.one_ne_zero, and_false, if_false]
        split
        next h => rw [h]
        · congr 1; omega
      · simp only [if_neg he]; rfl

theorem sCommon_eq (w : SWorld) (a b : Slice) : sCommon w a b =
    if (commonPrefix (w.rd a) (w.rd b)).length = 0 then .nil else a.upto (commonPrefix (w.rd a) (w.rd b)).length := by
  unfold sCommon
  rw [sCommonLoop_eq w a b a.len 0 .nil (by omega)]
  simp

theorem sCommon_rd (w : SWorld) (a b : Slice) : w.rd (sCommon w a b) = commonPrefix (w.rd a) (w.rd b) := by
  obtain ⟨⟨c, hc⟩, _⟩ := C09_commonPrefix (w.rd a) (w.rd b)
  have hlen : (commonPrefix (w.rd a) (w.rd b)).length ≤ a.len := by
    have := congrArg List.length hc; simp at this; omega
  rw [sCommon_eq]
  split
  next h => rw [List.length_eq_zero_iff.mp h]; rfl
  · rw [← SWorld.rd_take _ _ hlen]
    generalize commonPrefix (w.rd a) (w.rd b) = l at hc
    rw [hc]; simp

theorem sCommon_arr (w : SWorld) (a b : Slice) : sCommon w a b = .nil ∨
    ((sCommon w a b).arr = a.arr ∧ (sCommon w a b).off = a.off ∧ (sCommon w a b).len ≤ a.len) := by
  obtain ⟨⟨c, hc⟩, _⟩ := C09_commonPrefix (w.rd a) (w.rd b)
  have hlen : (commonPrefix (w.rd a) (w.rd b)).length ≤ a.len := by
    have := congrArg List.length hc; simp at this; omega
  rw [sCommon_eq]
  split
  · exact .inl rfl
  · exact .inr ⟨rfl, rfl, hlen⟩

/-! ## The simulation relation -/

/-- The node object `n` shows the list level object `o`; children that do not exist are ignored. -/
def NodeRel (w : SWorld) : SNode → NodeObj → Prop
  | .leaf p v, .leaf p' v' => w.rd p = p' ∧ w.rdv v = v'
  | .branch p ch, .branch p' ch' => w.rd p = p' ∧ ∀ i, (ch i).exist = (ch' i).exist ∧
      ((ch' i).exist = true → w.rd (ch i).suffix = (ch' i).suffix ∧ (ch i).hash = (ch' i).hash)
  | _, _ => False

/-- The nibble slices a node object holds. -/
def Uses : SNode → Slice → Prop
  | .leaf p _, s => s = p
  | .branch p ch, s => s = p ∨ ∃ i, (ch i).exist = true ∧ s = (ch i).suffix

/-- `w` shows the view `V`, and no stored node can disturb another one: the array behind a stored branch's prefix belongs
to that branch, and the other nodes look at most at the part that the prefix itself covers. -/
structure RS (w : SWorld) (V : View) : Prop where
  usable : w.store.Usable
  alloc : ∀ {k p}, w.store.get k = some p → p < w.next
  inj : ∀ {k k' p}, w.store.get k = some p → w.store.get k' = some p → k = k'
  none : ∀ {k}, w.store.get k = none → V k = none
  some : ∀ {k p}, w.store.get k = some p → ∃ o, V k = some o ∧ NodeRel w (w.heap p) o
  valid : ∀ {k p s}, w.store.get k = Option.some p → Uses (w.heap p) s → s.arr < w.nextArr
  distinct : ∀ {k1 p1 s1 c1 k2 p2 s2 c2}, w.store.get k1 = Option.some p1 → w.heap p1 = .branch s1 c1 → s1.len ≠ 0 →
    w.store.get k2 = Option.some p2 → w.heap p2 = .branch s2 c2 → s2.len ≠ 0 → s1.arr = s2.arr → p1 = p2
  own : ∀ {k1 p1 s1 c1 k2 p2 s}, w.store.get k1 = Option.some p1 → w.heap p1 = .branch s1 c1 → s1.len ≠ 0 →
    w.store.get k2 = Option.some p2 → p1 ≠ p2 → Uses (w.heap p2) s → s.len ≠ 0 → s.arr = s1.arr →
    s.off + s.len ≤ s1.off + s1.len
  pos : 0 < w.nextArr

/-- `s` may be stored in the node `p`: if a stored branch other than `p` owns the array, `s` ends within its prefix. -/
def Tame (w : SWorld) (p : Ptr) (s : Slice) : Prop := s.len ≠ 0 → ∀ k1 p1 s1 c1, w.store.get k1 = some p1 → p1 ≠ p →
  w.heap p1 = .branch s1 c1 → s1.len ≠ 0 → s.arr = s1.arr → s.off + s.len ≤ s1.off + s1.len

/-- No stored node holds a slice of the array `a`. -/
def NoRef (w : SWorld) (a : Nat) : Prop := ∀ k p s, w.store.get k = some p → Uses (w.heap p) s → s.arr ≠ a

/-- No stored branch owns the array `a`. -/
def NoOwn (w : SWorld) (a : Nat) : Prop := ∀ k p s c, w.store.get k = some p → w.heap p = .branch s c → s.len ≠ 0 →
  s.arr ≠ a

theorem NoRef.noOwn {w a} (h : NoRef w a) : NoOwn w a := by
  intro k p s c hg hh _
  exact h k p s hg (by rw [hh]; exact .inl rfl)

theorem NoOwn.tame {w : SWorld} {s : Slice} {p} (h : NoOwn w s.arr) : Tame w p s := by
  intro _ k1 p1 s1 c1 hg _ hh hl he
  exact absurd he.symm (h k1 p1 s1 c1 hg hh hl)

theorem RS.fresh {w V} (h : RS w V) : NoRef w w.nextArr := by
  intro k p s hg hu he
  have := h.valid hg hu
  omega

theorem NodeRel.congr {w w' : SWorld} {n o} (h : NodeRel w n o) (hr : ∀ s, Uses n s → w'.rd s = w.rd s)
    (hv : w'.vals = w.vals) : NodeRel w' n o := by
  cases n with
  | leaf p v =>
    cases o with
    | branch _ _ => exact h.elim
    | leaf p' v' => exact ⟨(hr p rfl).trans h.1, by rw [← h.2]; unfold SWorld.rdv; rw [hv]⟩
  | branch p ch =>
    cases o with
    | leaf _ _ => exact h.elim
    | branch p' ch' =>
      refine ⟨(hr p (.inl rfl)).trans h.1, fun i => ⟨(h.2 i).1, fun hi => ⟨?_, ((h.2 i).2 hi).2⟩⟩⟩
      rw [← ((h.2 i).2 hi).1]
      exact hr _ (.inr ⟨i, by rw [(h.2 i).1, hi], rfl⟩)

/-- Changing memory that no stored node looks at. -/
theorem RS.mem {w w' V} (h : RS w V) (hh : w'.heap = w.heap) (hs : w'.store = w.store) (hn : w'.next = w.next)
    (hv : w'.vals = w.vals) (ha : w.nextArr ≤ w'.nextArr)
    (hr : ∀ k p s, w.store.get k = .some p → Uses (w.heap p) s → w'.rd s = w.rd s) : RS w' V where
  usable := by rw [hs]; exact h.usable
  alloc := by rw [hs, hn]; exact h.alloc
  inj := by rw [hs]; exact h.inj
  none := by rw [hs]; exact h.none
  some := by
    intro k p hg
    rw [hs] at hg
    obtain ⟨o, h1, h2⟩ := h.some hg
    rw [hh]
    exact ⟨o, h1, h2.congr (fun s hu => hr k p s hg hu) hv⟩
  valid := by
    intro k p s hg hu
    rw [hs] at hg; rw [hh] at hu
    exact Nat.lt_of_lt_of_le (h.valid hg hu) ha
  distinct := by rw [hs, hh]; exact h.distinct
  own := by rw [hs, hh]; exact h.own
  pos := Nat.lt_of_lt_of_le h.pos ha

/-- Overwriting the stored branch `p`, keeping its prefix. -/
theorem RS.write {w V k p s c c' o} (h : RS w V) (hg : w.store.get k = .some p) (hh : w.heap p = .branch s c)
    (hrel : NodeRel w (.branch s c') o) (hc : ∀ i, (c' i).exist = true → (c' i).suffix.arr < w.nextArr ∧ Tame w p (c' i).suffix) :
    RS (w.write p (.branch s c')) (vset V k o) := by
  have hne : ∀ {q}, q ≠ p → (w.write p (.branch s c')).heap q = w.heap q := by intro q hq; simp [SWorld.write, hq]
  have hself : (w.write p (.branch s c')).heap p = .branch s c' := by simp [SWorld.write]
  have hpre : ∀ {q s1 c1}, (w.write p (.branch s c')).heap q = .branch s1 c1 → ∃ c0, w.heap q = .branch s1 c0 := by
    intro q s1 c1 hq
    by_cases e : q = p
    · subst e; rw [hself] at hq; cases hq; exact ⟨c, hh⟩
    · rw [hne e] at hq; exact ⟨c1, hq⟩
  have hrd : ∀ {n o}, NodeRel w n o → NodeRel (w.write p (.branch s c')) n o := by
    intro n o hn; exact hn.congr (fun _ _ => rfl) rfl
  refine ⟨h.usable, h.alloc, h.inj, ?_, ?_, ?_, ?_, ?_, h.pos⟩
  · intro q hq
    have : q ≠ k := by
      rintro rfl
      have : w.store.get q = .none := hq
      rw [hg] at this; cases this
    rw [vset_ne _ _ _ this]; exact h.none hq
  · intro q p' hq
    by_cases e : q = k
    · subst e
      have : p' = p := by
        have : w.store.get q = .some p' := hq
        rw [hg] at this; cases this; rfl
      subst this
      exact ⟨o, by simp, by rw [hself]; exact hrd hrel⟩
    · rw [vset_ne _ _ _ e]
      obtain ⟨o', h1, h2⟩ := h.some hq
      have : p' ≠ p := fun e' => e (h.inj hq (by rw [e']; exact hg))
      exact ⟨o', h1, by rw [hne this]; exact hrd h2⟩
  · intro q p' s' hq hu
    by_cases e : p' = p
    · subst e
      rw [hself] at hu
      rcases hu with rfl | ⟨i, hi, rfl⟩
      · exact h.valid hg (by rw [hh]; exact .inl rfl)
      · exact (hc i hi).1
    · rw [hne e] at hu; exact h.valid hq hu
  · intro k1 p1 s1 c1 k2 p2 s2 c2 hg1 hh1 hl1 hg2 hh2 hl2 he
    obtain ⟨d1, hd1⟩ := hpre hh1
    obtain ⟨d2, hd2⟩ := hpre hh2
    exact h.distinct hg1 hd1 hl1 hg2 hd2 hl2 he
  · intro k1 p1 s1 c1 k2 p2 s2 hg1 hh1 hl1 hg2 hne12 hu hl2 he
    obtain ⟨d1, hd1⟩ := hpre hh1
    by_cases e : p2 = p
    · subst e
      rw [hself] at hu
      rcases hu with rfl | ⟨i, hi, rfl⟩
      · exact h.own hg1 hd1 hl1 hg2 hne12 (by rw [hh]; exact .inl rfl) hl2 he
      · exact (hc i hi).2 hl2 k1 p1 s1 d1 hg1 hne12 hd1 hl1 he
    · rw [hne e] at hu
      exact h.own hg1 hd1 hl1 hg2 hne12 hu hl2 he

/-- Storing a new node. -/
theorem RS.putNew {w V} (h : RS w V) (k : Nibbles) {n o} (hrel : NodeRel w n o)
    (hu : ∀ s, Uses n s → s.arr < w.nextArr ∧ Tame w w.next s)
    (hb : ∀ s c, n = .branch s c → s.len ≠ 0 → NoRef w s.arr) :
    ∃ w', (w.alloc n).put k w.next = .some w' ∧ RS w' (vset V k o) ∧ w'.store.get k = .some w.next ∧
      (∀ q, q ≠ k → w'.store.get q = w.store.get q) ∧ w'.heap = (w.alloc n).heap ∧ w'.arrs = w.arrs ∧
      w'.nextArr = w.nextArr ∧ w'.vals = w.vals ∧ w'.next = w.next + 1 := by
  obtain ⟨s', h1, h2, h3⟩ := Store.put_spec w.store h.usable k w.next
  refine ⟨{ w.alloc n with store := s' }, by simp [SWorld.put, SWorld.alloc, h1], ?_, by simp [h3],
    fun q hq => by simp [h3, hq], rfl, rfl, rfl, rfl, rfl⟩
  have hne : ∀ {q}, q ≠ w.next → (w.alloc n).heap q = w.heap q := by intro q hq; simp [SWorld.alloc, hq]
  have hself : (w.alloc n).heap w.next = n := by simp [SWorld.alloc]
  have hrd : ∀ {n' o}, NodeRel w n' o → NodeRel { w.alloc n with store := s' } n' o := by
    intro n' o hn; exact hn.congr (fun _ _ => rfl) rfl
  have hget : ∀ {q p}, s'.get q = .some p → (q = k ∧ p = w.next) ∨ (q ≠ k ∧ w.store.get q = .some p ∧ p ≠ w.next) := by
    intro q p hq
    rw [h3] at hq
    split at hq
    next e => cases hq; exact .inl ⟨e, rfl⟩
    next e => exact .inr ⟨e, hq, Nat.ne_of_lt (h.alloc hq)⟩
  refine ⟨h2, ?_, ?_, ?_, ?_, ?_, ?_, ?_, h.pos⟩
  · intro q p hq
    rcases hget hq with ⟨_, rfl⟩ | ⟨_, hq, _⟩
    · exact Nat.lt_succ_self _
    · exact Nat.lt_succ_of_lt (h.alloc hq)
  · intro q q' p hq hq'
    rcases hget hq with ⟨rfl, rfl⟩ | ⟨_, hq, hp⟩ <;> rcases hget hq' with ⟨rfl, hp'⟩ | ⟨_, hq', hp'⟩
    · rfl
    · exact absurd rfl hp'
    · exact absurd hp' hp
    · exact h.inj hq hq'
  · intro q hq
    have hq : s'.get q = .none := hq
    rw [h3] at hq
    split at hq
    · cases hq
    next e => rw [vset_ne _ _ _ e]; exact h.none hq
  · intro q p hq
    rcases hget hq with ⟨rfl, rfl⟩ | ⟨e, hq, hp⟩
    · exact ⟨o, by simp, by show NodeRel _ ((w.alloc n).heap w.next) o; rw [hself]; exact hrd hrel⟩
    · obtain ⟨o', a1, a2⟩ := h.some hq
      exact ⟨o', by rw [vset_ne _ _ _ e]; exact a1, by show NodeRel _ ((w.alloc n).heap p) o'; rw [hne hp]; exact hrd a2⟩
  · intro q p s hq hus
    replace hus : Uses ((w.alloc n).heap p) s := hus
    rcases hget hq with ⟨rfl, rfl⟩ | ⟨e, hq, hp⟩
    · rw [hself] at hus; exact (hu s hus).1
    · rw [hne hp] at hus; exact h.valid hq hus
  · intro k1 p1 s1 c1 k2 p2 s2 c2 hg1 hh1 hl1 hg2 hh2 hl2 he
    replace hh1 : (w.alloc n).heap p1 = .branch s1 c1 := hh1
    replace hh2 : (w.alloc n).heap p2 = .branch s2 c2 := hh2
    rcases hget hg1 with ⟨rfl, rfl⟩ | ⟨e, hg1, hp1⟩ <;> rcases hget hg2 with ⟨e2, hp2⟩ | ⟨e2, hg2, hp2⟩
    · exact hp2.symm
    · rw [hself] at hh1; rw [hne hp2] at hh2
      exact absurd he.symm (hb _ _ hh1 hl1 k2 p2 s2 hg2 (by rw [hh2]; exact .inl rfl))
    · subst hp2
      rw [hself] at hh2; rw [hne hp1] at hh1
      exact absurd he (hb _ _ hh2 hl2 k1 p1 s1 hg1 (by rw [hh1]; exact .inl rfl))
    · rw [hne hp1] at hh1; rw [hne hp2] at hh2
      exact h.distinct hg1 hh1 hl1 hg2 hh2 hl2 he
  · intro k1 p1 s1 c1 k2 p2 s hg1 hh1 hl1 hg2 hne12 hus hl he
    replace hh1 : (w.alloc n).heap p1 = .branch s1 c1 := hh1
    replace hus : Uses ((w.alloc n).heap p2) s := hus
    rcases hget hg1 with ⟨rfl, rfl⟩ | ⟨e, hg1, hp1⟩ <;> rcases hget hg2 with ⟨e2, hp2⟩ | ⟨e2, hg2, hp2⟩
    · exact absurd hp2.symm hne12
    · rw [hself] at hh1; rw [hne hp2] at hus
      exact absurd he (hb _ _ hh1 hl1 k2 p2 s hg2 hus)
    · subst hp2
      rw [hself] at hus; rw [hne hp1] at hh1
      exact (hu s hus).2 hl k1 p1 s1 c1 hg1 hne12 hh1 hl1 he
    · rw [hne hp1] at hh1; rw [hne hp2] at hus
      exact h.own hg1 hh1 hl1 hg2 hne12 hus hl he

theorem RS.restore {w V} (h : RS w V) {s' : Store} (hu : s'.Usable) (hg : ∀ q, s'.get q = w.store.get q) :
    RS { w with store := s' } V := by
  have hrd : ∀ {n o}, NodeRel w n o → NodeRel { w with store := s' } n o := by
    intro n o hn; exact hn.congr (fun _ _ => rfl) rfl
  refine ⟨hu, ?_, ?_, ?_, ?_, ?_, ?_, ?_, h.pos⟩
  · intro q p hq; exact h.alloc ((hg q).symm.trans hq)
  · intro q q' p hq hq'; exact h.inj ((hg q).symm.trans hq) ((hg q').symm.trans hq')
  · intro q hq; exact h.none ((hg q).symm.trans hq)
  · intro q p hq
    obtain ⟨o, h1, h2⟩ := h.some ((hg q).symm.trans hq)
    exact ⟨o, h1, hrd h2⟩
  · intro q p s hq hus; exact h.valid ((hg q).symm.trans hq) hus
  · intro k1 p1 s1 c1 k2 p2 s2 c2 hg1 hh1 hl1 hg2 hh2 hl2 he
    exact h.distinct ((hg _).symm.trans hg1) hh1 hl1 ((hg _).symm.trans hg2) hh2 hl2 he
  · intro k1 p1 s1 c1 k2 p2 s2 hg1 hh1 hl1 hg2 hne hus hl2 he
    exact h.own ((hg _).symm.trans hg1) hh1 hl1 ((hg _).symm.trans hg2) hne hus hl2 he

theorem RS.putSame {w V k p} (h : RS w V) (hp : w.store.get k = .some p) :
    ∃ w', w.put k p = .some w' ∧ RS w' V ∧ (∀ q, w'.store.get q = w.store.get q) ∧ w'.heap = w.heap ∧
      w'.arrs = w.arrs ∧ w'.nextArr = w.nextArr ∧ w'.vals = w.vals := by
  obtain ⟨s', h1, h2, h3⟩ := Store.put_spec w.store h.usable k p
  have h4 : ∀ q, s'.get q = w.store.get q := by
    intro q; rw [h3]; split
    · rename_i e; rw [e, hp]
    · rfl
  exact ⟨{ w with store := s' }, by simp [SWorld.put, h1], h.restore h2 h4, h4, rfl, rfl, rfl, rfl⟩

theorem RS.del {w V} (h : RS w V) (k : Nibbles) :
    ∃ w', w.del k = .some w' ∧ RS w' (vdel V k) ∧ (∀ q, w'.store.get q = if q = k then .none else w.store.get q) ∧
      w'.heap = w.heap ∧ w'.arrs = w.arrs ∧ w'.nextArr = w.nextArr ∧ w'.vals = w.vals ∧ w'.next = w.next := by
  obtain ⟨s', h1, h2, h3⟩ := Store.del_spec w.store h.usable k
  refine ⟨{ w with store := s' }, by simp [SWorld.del, h1], ?_, h3, rfl, rfl, rfl, rfl, rfl⟩
  have hget : ∀ {q p}, s'.get q = .some p → q ≠ k ∧ w.store.get q = .some p := by
    intro q p hq
    rw [h3] at hq
    split at hq
    · cases hq
    next e => exact ⟨e, hq⟩
  have hrd : ∀ {n o}, NodeRel w n o → NodeRel { w with store := s' } n o := by
    intro n o hn; exact hn.congr (fun _ _ => rfl) rfl
  refine ⟨h2, ?_, ?_, ?_, ?_, ?_, ?_, ?_, h.pos⟩
  · intro q p hq; exact h.alloc (hget hq).2
  · intro q q' p hq hq'; exact h.inj (hget hq).2 (hget hq').2
  · intro q hq
    have hq : s'.get q = .none := hq
    rw [h3] at hq
    by_cases e : q = k
    · subst e; simp
    · rw [if_neg e] at hq; rw [vdel_ne _ _ e]; exact h.none hq
  · intro q p hq
    obtain ⟨o, a1, a2⟩ := h.some (hget hq).2
    exact ⟨o, by rw [vdel_ne _ _ (hget hq).1]; exact a1, hrd a2⟩
  · intro q p s hq hus; exact h.valid (hget hq).2 hus
  · intro k1 p1 s1 c1 k2 p2 s2 c2 hg1 hh1 hl1 hg2 hh2 hl2 he
    exact h.distinct (hget hg1).2 hh1 hl1 (hget hg2).2 hh2 hl2 he
  · intro k1 p1 s1 c1 k2 p2 s2 hg1 hh1 hl1 hg2 hne hus hl2 he
    exact h.own (hget hg1).2 hh1 hl1 (hget hg2).2 hne hus hl2 he

/-! ## Simulation of `invalidatePath` -/

/-- The pointer stack `ps` holds the nodes at the paths `ks`. -/
def SPath (st : Store) : List Ptr → List Nibbles → Prop
  | [], [] => True
  | p :: ps, k :: ks => st.get k = some p ∧ SPath st ps ks
  | _, _ => False

theorem SPath.congr {st st' : Store} {ps ks} (h : SPath st ps ks) (hs : ∀ k ∈ ks, st'.get k = st.get k) :
    SPath st' ps ks := by
  induction ps generalizing ks with
  | nil => cases ks <;> simp_all [SPath]
  | cons p ps ih =>
    cases ks with
    | nil => exact h
    | cons k ks =>
      exact ⟨(hs k (by simp)).trans h.1, ih h.2 (fun k hk => hs k (by simp [hk]))⟩

/-- `s` may be stored in any node. -/
def Tame0 (w : SWorld) (s : Slice) : Prop := s.len ≠ 0 → ∀ k1 p1 s1 c1, w.store.get k1 = some p1 →
  w.heap p1 = .branch s1 c1 → s1.len ≠ 0 → s.arr = s1.arr → s.off + s.len ≤ s1.off + s1.len

theorem NoOwn.tame0 {w : SWorld} {s : Slice} (h : NoOwn w s.arr) : Tame0 w s := by
  intro _ k1 p1 s1 c1 hg hh hl he
  exact absurd he.symm (h k1 p1 s1 c1 hg hh hl)

/-- A stored branch shows a branch. -/
theorem RS.branchOf {w V k p pp ch} (h : RS w V) (hg : w.store.get k = .some p) (ho : V k = .some (.branch pp ch)) :
    ∃ s c, w.heap p = .branch s c ∧ NodeRel w (.branch s c) (.branch pp ch) := by
  obtain ⟨o, h1, h2⟩ := h.some hg
  rw [ho] at h1
  cases h1
  cases hh : w.heap p with
  | leaf a b => rw [hh] at h2; exact h2.elim
  | branch s c => exact ⟨s, c, rfl, by rw [hh] at h2; exact h2⟩

/-- The prefix of a stored branch may be stored anywhere. -/
theorem RS.tamePrefix {w V k p s c} (h : RS w V) (hg : w.store.get k = .some p) (hh : w.heap p = .branch s c) :
    Tame0 w s := by
  intro hl k1 p1 s1 c1 hg1 hh1 hl1 he
  by_cases e : p1 = p
  · subst e; rw [hh] at hh1; cases hh1; exact Nat.le_refl _
  · exact h.own hg1 hh1 hl1 hg e (by rw [hh]; exact .inl rfl) hl he

theorem setRel {w : SWorld} {pfx : Slice} {c : Nib → SChild} {pp : Nibbles} {ch : Nib → Child} {i : Nib} {d : SChild}
    {d' : Child} (h : NodeRel w (.branch pfx c) (.branch pp ch))
    (hd : d.exist = d'.exist ∧ (d'.exist = true → w.rd d.suffix = d'.suffix ∧ d.hash = d'.hash)) :
    NodeRel w (.branch pfx (sSet c i d)) (.branch pp (setChild ch i d')) := by
  refine ⟨h.1, fun j => ?_⟩
  by_cases e : j = i
  · simp only [sSet, setChild, e, if_true]; exact hd
  · simp only [sSet, setChild, e, if_false]; exact h.2 j

/-- Slices of existing children of a stored branch. -/
theorem RS.childOk {w V k p s c i} (h : RS w V) (hg : w.store.get k = .some p) (hh : w.heap p = .branch s c)
    (hi : (c i).exist = true) : (c i).suffix.arr < w.nextArr ∧ Tame w p (c i).suffix := by
  have hu : Uses (w.heap p) (c i).suffix := by rw [hh]; exact .inr ⟨i, hi, rfl⟩
  refine ⟨h.valid hg hu, ?_⟩
  intro hl k1 p1 s1 c1 hg1 hne hh1 hl1 he
  exact h.own hg1 hh1 hl1 hg hne hu hl he

theorem s_inv {w : SWorld} {V V' : View} {ps : List Ptr} {ks : List Nibbles} {cur : Slice}
    (h : RS w V) (hp : SPath w.store ps ks) (hc1 : cur.arr < w.nextArr) (hc2 : Tame0 w cur)
    (hv : invV (w.rd cur) ks V = .some V') :
    ∃ w', sInvalidate cur ps w = .some w' ∧ RS w' V' ∧ w'.vals = w.vals := by
  induction ks generalizing w V ps cur with
  | nil =>
    cases ps with
    | nil => simp only [invV, Option.some.injEq] at hv; subst hv; exact ⟨w, rfl, h, rfl⟩
    | cons p ps => exact absurd hp (by simp [SPath])
  | cons k ks ih =>
    cases ps with
    | nil => exact absurd hp (by simp [SPath])
    | cons p ps =>
      obtain ⟨hp1, hp2⟩ := hp
      simp only [invV] at hv
      split at hv
      next pp ch ho =>
        split at hv
        next hc =>
          obtain ⟨rfl, hlen⟩ := hc
          split at hv
          · simp at hv
          next i s hd =>
            obtain ⟨sp, c, hh, hrel⟩ := h.branchOf hp1 ho
            have hpl : sp.len = pp.length := by rw [← hrel.1]; simp
            have hcl : sp.len ≤ cur.len := by simpa [hpl] using hlen
            have hfrom := from_eq hcl
            generalize hs0 : (⟨cur.arr, cur.off + sp.len, cur.len - sp.len, cur.cap - sp.len⟩ : Slice) = s0 at hfrom
            have hrd0 : w.rd s0 = i :: s := by rw [← hs0, ← SWorld.rd_drop, hpl, hd]
            have hl0 : s0.len ≠ 0 := by
              intro e; rw [SWorld.rd_eq_nil.mpr e] at hrd0; simp at hrd0
            have hnib : w.nib s0 0 = i := by
              obtain ⟨t, ht⟩ := SWorld.rd_cons (w := w) hl0
              rw [hrd0] at ht; simp at ht; exact ht.1.symm
            have hput : sPutChild w c s0 zeroHash = .some (sSet c i ⟨s0, zeroHash, true⟩) := by
              simp only [sPutChild, if_neg hl0, hnib]
            have hrel' : NodeRel w (.branch sp (sSet c i ⟨s0, zeroHash, true⟩))
                (.branch pp (setChild ch i ⟨i :: s, zeroHash, true⟩)) :=
              setRel hrel ⟨rfl, fun _ => ⟨hrd0, rfl⟩⟩
            have hend : s0.arr = cur.arr ∧ s0.off + s0.len = cur.off + cur.len := by
              rw [← hs0]; exact ⟨rfl, by simp only; omega⟩
            have hw := h.write (c' := sSet c i ⟨s0, zeroHash, true⟩) hp1 hh hrel' (by
              intro j hj
              by_cases e : j = i
              · simp only [sSet, e, if_true]
                refine ⟨by rw [hend.1]; exact hc1, ?_⟩
                intro _ k1 p1 s1 c1 hg1 _ hh1 hl1 he
                rw [hend.2]
                exact hc2 (by rw [← hs0] at hl0; simp only at hl0; omega) k1 p1 s1 c1 hg1 hh1 hl1 (by rw [← hend.1]; exact he)
              · simp only [sSet, e, if_false] at hj ⊢
                exact h.childOk hp1 hh hj)
            have hself : (w.write p (.branch sp (sSet c i ⟨s0, zeroHash, true⟩))).heap p =
                .branch sp (sSet c i ⟨s0, zeroHash, true⟩) := by simp [SWorld.write]
            have hrdw : (w.write p (.branch sp (sSet c i ⟨s0, zeroHash, true⟩))).rd sp = pp := hrel.1
            obtain ⟨w', e1, e2, e3⟩ := ih (ps := ps) (cur := sp) hw hp2 (h.valid hp1 (by rw [hh]; exact .inl rfl))
              (hw.tamePrefix hp1 hself) (by rw [hrdw]; exact hv)
            exact ⟨w', by simp only [sInvalidate, hh, hfrom, hput, e1], e2, e3⟩
        · simp at hv
      · simp at hv

/-! ## Simulation of `prune` -/

/-- The indices of the existing children. -/
def liveIdx (ch : Nib → Child) : List Nib := (List.finRange 16).filter fun i => (ch i).exist

theorem existing_idx (ch : Nib → Child) : existing ch = (liveIdx ch).map ch := by
  unfold existing liveIdx
  rw [List.filter_map]; rfl

theorem sExisting_idx {w : SWorld} {s c pp ch} (h : NodeRel w (.branch s c) (.branch pp ch)) :
    sExisting c = (liveIdx ch).map c := by
  unfold sExisting liveIdx
  rw [List.filter_map]
  congr 1
  apply List.filter_congr
  intro i _
  exact (h.2 i).1

theorem liveIdx_mem {ch : Nib → Child} {i} (h : i ∈ liveIdx ch) : (ch i).exist = true := by
  simpa [liveIdx] using h

theorem s_prune {w : SWorld} {V V' : View} {ps : List Ptr} {ks : List Nibbles} {cur : Slice}
    (h : RS w V) (hp : SPath w.store ps ks) (hv : pruneV (w.rd cur) ks V = .some V') :
    ∃ w', sPrune grow cur ps w = .some w' ∧ RS w' V' ∧ w'.vals = w.vals := by
  induction ks generalizing w V ps cur with
  | nil =>
    cases ps with
    | nil => simp only [pruneV, Option.some.injEq] at hv; subst hv; exact ⟨w, rfl, h, rfl⟩
    | cons p ps => exact absurd hp (by simp [SPath])
  | cons k ks ih =>
    cases ps with
    | nil => exact absurd hp (by simp [SPath])
    | cons p ps =>
      obtain ⟨hp1, hp2⟩ := hp
      simp only [pruneV] at hv
      split at hv
      next pp ch ho =>
        split at hv
        next hc =>
          obtain ⟨rfl, hnot⟩ := hc
          split at hv
          · simp at hv
          next i s hd =>
            obtain ⟨sp, c, hh, hrel⟩ := h.branchOf hp1 ho
            have hpl : sp.len = pp.length := by rw [← hrel.1]; simp
            have hlt : sp.len < cur.len := by
              have := congrArg List.length hd
              simp at this; omega
            have hnib : w.nib cur sp.len = i := by
              obtain ⟨t, ht⟩ := SWorld.drop_nib (w := w) hlt
              rw [hpl, hd] at ht; rw [hpl]; simp at ht; exact ht.1.symm
            have hrel' : NodeRel w (.branch sp (sSet c i { c i with exist := false }))
                (.branch pp (setChild ch i { ch i with exist := false })) := setRel hrel ⟨rfl, fun e => by simp at e⟩
            have hw := h.write (c' := sSet c i { c i with exist := false }) hp1 hh hrel' (by
              intro j hj
              by_cases e : j = i
              · simp [sSet, e] at hj
              · simp only [sSet, e, if_false] at hj ⊢
                exact h.childOk hp1 hh hj)
            generalize hc' : sSet c i { c i with exist := false } = c' at hrel' hw
            generalize hch : setChild ch i { ch i with exist := false } = ch' at hv hrel' hw
            generalize hw0 : w.write p (.branch sp c') = w0 at hw
            have hst : w0.store = w.store := by rw [← hw0]; rfl
            have hself : w0.heap p = .branch sp c' := by rw [← hw0]; simp [SWorld.write]
            have hvals : w0.vals = w.vals := by rw [← hw0]; rfl
            have hrd0 : w0.rd sp = pp := by rw [← hw0]; exact hrel.1
            have hrel0 : NodeRel w0 (.branch sp c') (.branch pp ch') := by
              rw [← hw0]; exact hrel'.congr (fun _ _ => rfl) rfl
            have hp1' : w0.store.get pp = .some p := by rw [hst]; exact hp1
            have hp2' : SPath w0.store ps ks := by rw [hst]; exact hp2
            have hspv : sp.arr < w0.nextArr := hw.valid hp1' (by rw [hself]; exact .inl rfl)
            have keep : ∀ V', invV pp ks (vset V pp (.branch pp ch')) = .some V' →
                ∃ w', (w0.put (w0.rd sp) p).bind (sInvalidate sp ps) = .some w' ∧ RS w' V' ∧ w'.vals = w.vals := by
              intro V' hv'
              obtain ⟨w1, a1, a2, a3, a4, a5, a6, a7⟩ := hw.putSame hp1'
              have hrd1 : w1.rd sp = pp := by rw [← hrd0]; unfold SWorld.rd SWorld.nib; rw [a5]
              have ht : Tame0 w1 sp := a2.tamePrefix (k := pp) (p := p) (by rw [a3]; exact hp1') (by rw [a4]; exact hself)
              obtain ⟨w2, b1, b2, b3⟩ := s_inv (ps := ps) (cur := sp) a2 (hp2'.congr (fun q _ => a3 q)) (by rw [a6]; exact hspv) ht
                (by rw [hrd1]; exact hv')
              exact ⟨w2, by rw [hrd0, a1]; exact b1, b2, b3.trans (a7.trans hvals)⟩
            have hex := sExisting_idx hrel'
            have hex' := existing_idx ch'
            simp only [sPrune, hh, if_pos hlt, hnib, hc', hw0]
            rw [hex]
            rw [hex'] at hv
            generalize hL : liveIdx ch' = L at hv
            match L, hv, hL with
            | [j], hv, hL =>
              simp only [List.map_cons, List.map_nil] at hv ⊢
              by_cases hl : pp.length > 0
              · rw [if_pos hl] at hv
                rw [if_pos (by omega)]
                have hj : (ch' j).exist = true := liveIdx_mem (by rw [hL]; simp)
                obtain ⟨w1, a1, a2, a3, a4, a5, a6, a7, a8⟩ := hw.del pp
                rw [hrd0, a1]
                simp only
                have hsuf : w1.rd (c' j).suffix = (ch' j).suffix := by
                  rw [← ((hrel0.2 j).2 hj).1]; unfold SWorld.rd SWorld.nib; rw [a5]
                have hrd1 : w1.rd sp = pp := by rw [← hrd0]; unfold SWorld.rd SWorld.nib; rw [a5]
                have happ := sAppend_rd (grow := grow) w1 sp (c' j).suffix
                obtain ⟨f1, f2, f3, f4, f5⟩ := sAppend_same (grow := grow) w1 sp (c' j).suffix
                obtain ⟨g1, g2⟩ := sAppend_arr (grow := grow) w1 sp (c' j).suffix (by rw [a6]; exact hspv)
                have hfr := fun {a x} => sAppend_frame (grow := grow) w1 sp (c' j).suffix (a := a) (x := x)
                generalize sAppend grow w1 sp (c' j).suffix = r at happ f1 f2 f3 f4 f5 g1 g2 hfr
                obtain ⟨e, w2⟩ := r
                simp only at happ f1 f2 f3 f4 f5 g1 g2 hfr ⊢
                -- the deleted branch is not stored any more
                have hgone : ∀ {q p'}, w1.store.get q = .some p' → w0.store.get q = .some p' ∧ p' ≠ p := by
                  intro q p' hq
                  rw [a3] at hq
                  split at hq
                  · cases hq
                  next ne => exact ⟨hq, fun e => ne (hw.inj hq (by rw [e]; exact hp1'))⟩
                have hsp0 : sp.len ≠ 0 := by omega
                have hR2 : RS w2 (vdel (vset V pp (.branch pp ch')) pp) := by
                  refine a2.mem f1 f2 f3 f4 f5 ?_
                  intro q p' s' hq hu
                  obtain ⟨hq', hne⟩ := hgone hq
                  rw [a4] at hu
                  apply SWorld.rd_congr
                  intro x hx1 hx2
                  apply hfr (by rw [a6]; exact hw.valid hq' hu)
                  by_cases hsa : s'.arr = sp.arr
                  · right; right
                    have := hw.own hp1' hself hsp0 hq' (Ne.symm hne) hu (by omega) hsa
                    omega
                  · exact .inr (.inl hsa)
                have ht : Tame0 w2 e := by
                  intro _ k1 p1 s1 c1 hg1 hh1 hl1 he
                  rw [f2] at hg1; rw [f1] at hh1
                  obtain ⟨hq', hne⟩ := hgone hg1
                  rw [a4] at hh1
                  exfalso
                  rcases g2 with ⟨g2, _⟩ | g2
                  · exact hne (hw.distinct hq' hh1 hl1 hp1' hself hsp0 (by rw [← he, g2]))
                  · have := hw.valid hq' (s := s1) (by rw [hh1]; exact .inl rfl)
                    rw [← he, g2, a6] at this
                    exact Nat.lt_irrefl _ this
                obtain ⟨w3, b1, b2, b3⟩ := s_inv (ps := ps) (cur := e) hR2
                  ((hp2'.congr (st' := w2.store) (fun q hq => by
                    rw [f2, a3, if_neg (fun (e : q = pp) => hnot (e ▸ hq))]))) g1 ht (by rw [happ, hsuf, hrd1]; exact hv)
                exact ⟨w3, b1, b2, b3.trans (f4.trans (a7.trans hvals))⟩
              · rw [if_neg hl] at hv
                rw [if_neg (by omega)]
                exact keep _ hv
            | [], hv, hL =>
              simp only [List.map_nil] at hv ⊢
              by_cases hl : pp.length = 0
              · rw [if_pos hl] at hv
                rw [if_pos (by omega)]
                exact keep _ hv
              · rw [if_neg hl] at hv
                rw [if_neg (by omega)]
                obtain ⟨w', e1, e2, e3⟩ := ih (ps := ps) (cur := sp) hw hp2' (by rw [hrd0]; exact hv)
                exact ⟨w', e1, e2, e3.trans hvals⟩
            | c1 :: c2 :: cs, hv, hL =>
              simp only [List.map_cons] at hv ⊢
              exact keep _ hv
        · simp at hv
      · simp at hv

/-! ## Simulation of `update` -/

theorem rd_same {w w' : SWorld} (h : w'.arrs = w.arrs) (s : Slice) : w'.rd s = w.rd s := by
  unfold SWorld.rd SWorld.nib; rw [h]

theorem rdv_same {w w' : SWorld} (h : w'.vals = w.vals) (s : Slice) : w'.rdv s = w.rdv s := by
  unfold SWorld.rdv; rw [h]

/-- Storing a new leaf whose prefix slice lies in an array that no stored branch owns. -/
theorem RS.putLeaf {w V} (h : RS w V) {P val : Slice} {value : Bytes} (hP1 : P.arr < w.nextArr) (hP2 : NoOwn w P.arr)
    (hval : w.rdv val = value) : ∃ w', (w.alloc (.leaf P val)).put (w.rd P) w.next = .some w' ∧
      RS w' (vset V (w.rd P) (.leaf (w.rd P) value)) ∧ w'.store.get (w.rd P) = .some w.next ∧
      (∀ q, q ≠ w.rd P → w'.store.get q = w.store.get q) ∧ w'.heap = (w.alloc (.leaf P val)).heap ∧ w'.arrs = w.arrs ∧
      w'.nextArr = w.nextArr ∧ w'.vals = w.vals ∧ w'.next = w.next + 1 := by
  refine h.putNew (w.rd P) (n := .leaf P val) ⟨rfl, hval⟩ ?_ ?_
  · rintro s rfl
    exact ⟨hP1, hP2.tame⟩
  · intro s c e; cases e

/-- Branches in the world after `putLeaf` are the old ones. -/
theorem alloc_branch {w : SWorld} {P val : Slice} {p : Ptr} {s c} (h : (w.alloc (.leaf P val)).heap p = .branch s c) :
    w.heap p = .branch s c := by
  simp only [SWorld.alloc] at h
  split at h
  · cases h
  · exact h

theorem s_split {w : SWorld} {V V' : View} {ps : List Ptr} {ks : List Nibbles} {A P val : Slice} {value : Bytes}
    {i j : Nib} {s r : Nibbles}
    (h : RS w V) (hp : SPath w.store ps ks)
    (hA1 : A.arr < w.nextArr) (hA2 : NoRef w A.arr) (hA3 : A.arr ≠ P.arr)
    (hP1 : P.arr < w.nextArr) (hP2 : NoOwn w P.arr) (hval : w.rdv val = value)
    (hqk : w.rd P ∉ ks) (hpk : commonPrefix (w.rd A) (w.rd P) ∉ ks)
    (hd1 : (w.rd A).drop (commonPrefix (w.rd A) (w.rd P)).length = i :: s)
    (hd2 : (w.rd P).drop (commonPrefix (w.rd A) (w.rd P)).length = j :: r)
    (hv : invV (commonPrefix (w.rd A) (w.rd P)) ks (vset (vset V (w.rd P) (.leaf (w.rd P) value))
      (commonPrefix (w.rd A) (w.rd P)) (.branch (commonPrefix (w.rd A) (w.rd P))
        (setChild (setChild (fun _ => Child.zero) i ⟨i :: s, zeroHash, true⟩) j ⟨j :: r, zeroHash, true⟩))) = .some V') :
    ∃ w', sSplit A P val ps w = .some w' ∧ RS w' V' ∧ w'.vals = w.vals := by
  obtain ⟨w1, a1, a2, a3, a4, a5, a6, a7, a8, a9⟩ := h.putLeaf hP1 hP2 hval
  have hrd := rd_same a6
  have hpar := sCommon_rd w1 A P
  have hparr := sCommon_arr w1 A P
  rw [hrd A, hrd P] at hpar
  unfold sSplit
  simp only [a1]
  generalize sCommon w1 A P = par at hpar hparr
  generalize hq : w.rd P = q at *
  generalize hn : w.rd A = n at *
  generalize hcp : commonPrefix n q = cp at *
  have hplen : par.len = cp.length := by rw [← hpar]; simp
  have hNoRef : NoRef w1 A.arr := by
    intro k p s hg hu
    rw [a5] at hu
    by_cases e : k = q
    · subst e; rw [a3] at hg; cases hg
      simp only [SWorld.alloc, if_true] at hu
      rw [show s = P from hu]; exact Ne.symm hA3
    · rw [a4 _ e] at hg
      have : p ≠ w.next := Nat.ne_of_lt (h.alloc hg)
      simp only [SWorld.alloc, if_neg this] at hu
      exact hA2 k p s hg hu
  have hNoOwnP : NoOwn w1 P.arr := by
    intro k p s c hg hh hl
    rw [a5] at hh
    by_cases e : k = q
    · subst e; rw [a3] at hg; cases hg
      simp [SWorld.alloc] at hh
    · rw [a4 _ e] at hg
      exact hP2 k p s c hg (alloc_branch hh) hl
  have hl1 : par.len ≤ A.len := by
    have := congrArg List.length hd1
    rw [← hn] at this
    simp at this; omega
  have hl2 : par.len ≤ P.len := by
    have := congrArg List.length hd2
    rw [← hq] at this
    simp at this; omega
  rw [from_eq hl1, from_eq hl2]
  generalize hs1 : (⟨A.arr, A.off + par.len, A.len - par.len, A.cap - par.len⟩ : Slice) = s1
  generalize hs2 : (⟨P.arr, P.off + par.len, P.len - par.len, P.cap - par.len⟩ : Slice) = s2
  have r1 : w1.rd s1 = i :: s := by rw [← hs1, ← SWorld.rd_drop, hrd, hn, hplen, hd1]
  have r2 : w1.rd s2 = j :: r := by rw [← hs2, ← SWorld.rd_drop, hrd, hq, hplen, hd2]
  have nz : ∀ {s0 : Slice} {i0 : Nib} {t0 : Nibbles}, w1.rd s0 = i0 :: t0 → s0.len ≠ 0 ∧ w1.nib s0 0 = i0 := by
    intro s0 i0 t0 h0
    have hz : s0.len ≠ 0 := by intro e; rw [SWorld.rd_eq_nil.mpr e] at h0; simp at h0
    obtain ⟨t, ht⟩ := SWorld.rd_cons (w := w1) hz
    rw [h0] at ht; simp at ht; exact ⟨hz, ht.1.symm⟩
  have p1 : ∀ c, sPutChild w1 c s1 zeroHash = .some (sSet c i ⟨s1, zeroHash, true⟩) := by
    intro c; simp only [sPutChild, if_neg (nz r1).1, (nz r1).2]
  have p2 : ∀ c, sPutChild w1 c s2 zeroHash = .some (sSet c j ⟨s2, zeroHash, true⟩) := by
    intro c; simp only [sPutChild, if_neg (nz r2).1, (nz r2).2]
  simp only [p1, p2]
  have e1 : s1.arr = A.arr := by rw [← hs1]
  have e2 : s2.arr = P.arr := by rw [← hs2]
  have hrel : NodeRel w1 (.branch par (sSet (sSet (fun _ => SChild.zero) i ⟨s1, zeroHash, true⟩) j ⟨s2, zeroHash, true⟩))
      (.branch cp (setChild (setChild (fun _ => Child.zero) i ⟨i :: s, zeroHash, true⟩) j ⟨j :: r, zeroHash, true⟩)) := by
    apply setRel _ ⟨rfl, fun _ => ⟨r2, rfl⟩⟩
    apply setRel _ ⟨rfl, fun _ => ⟨r1, rfl⟩⟩
    exact ⟨hpar, fun _ => ⟨rfl, fun e => by simp [Child.zero] at e⟩⟩
  have hown1 : ∀ {sl : Slice} {p}, sl.arr = A.arr → Tame w1 p sl := by
    intro sl p e; apply NoOwn.tame; rw [e]; exact hNoRef.noOwn
  have hown2 : ∀ {sl : Slice} {p}, sl.arr = P.arr → Tame w1 p sl := by
    intro sl p e; apply NoOwn.tame; rw [e]; exact hNoOwnP
  obtain ⟨w2, b1, b2, b3, b4, b5, b6, b7, b8, b9⟩ := a2.putNew cp hrel (by
    rintro sl (rfl | ⟨l, hl, rfl⟩)
    · rcases hparr with rfl | ⟨e, _⟩
      · exact ⟨a2.pos, fun hz => absurd rfl hz⟩
      · exact ⟨by rw [e, a7]; exact hA1, hown1 e⟩
    · simp only [sSet] at hl ⊢
      split
      · exact ⟨by rw [e2, a7]; exact hP1, hown2 e2⟩
      · split
        · exact ⟨by rw [e1, a7]; exact hA1, hown1 e1⟩
        next h1 h2 => simp [h1, h2, SChild.zero] at hl) (by
    intro sl c e hl
    cases e
    rcases hparr with rfl | ⟨e, _⟩
    · exact absurd rfl hl
    · rw [e]; exact hNoRef)
  have hrdpar : w1.rd par = cp := hpar
  rw [hrdpar, b1]
  simp only
  have hself : w2.heap w1.next = .branch par
      (sSet (sSet (fun _ => SChild.zero) i ⟨s1, zeroHash, true⟩) j ⟨s2, zeroHash, true⟩) := by
    rw [b5]; simp only [SWorld.alloc, if_true]
  have ht : Tame0 w2 par := b2.tamePrefix b3 hself
  have hpv : par.arr < w2.nextArr := b2.valid b3 (s := par) (by rw [hself]; exact .inl rfl)
  obtain ⟨w3, c1, c2, c3⟩ := s_inv (ps := ps) (cur := par) b2
    ((hp.congr (fun k hk => a4 k (fun e => hqk (e ▸ hk)))).congr (fun k hk => b4 k (fun e => hpk (e ▸ hk)))) hpv ht
    (by rw [rd_same b6, hrdpar]; exact hv)
  exact ⟨w3, c1, c2, c3.trans (b8.trans a8)⟩

theorem s_addLeaf {w : SWorld} {V V' : View} {ps : List Ptr} {ks : List Nibbles} {A P val : Slice} {value : Bytes}
    {node : Ptr} {ch : Nib → Child} {i : Nib} {s : Nibbles}
    (h : RS w V) (hp : SPath w.store ps ks) (hg : w.store.get (w.rd A) = .some node)
    (ho : V (w.rd A) = .some (.branch (w.rd A) ch))
    (hA1 : A.arr < w.nextArr) (hA2 : A.len = 0 ∨ NoRef w A.arr)
    (hP1 : P.arr < w.nextArr) (hP2 : NoOwn w P.arr) (hval : w.rdv val = value)
    (hqk : w.rd P ∉ ks) (hqn : w.rd P ≠ w.rd A)
    (hd : (w.rd P).drop (w.rd A).length = i :: s)
    (hv : invV (w.rd A) ks (vset (vset V (w.rd P) (.leaf (w.rd P) value)) (w.rd A)
      (.branch (w.rd A) (setChild ch i ⟨i :: s, zeroHash, true⟩))) = .some V') :
    ∃ w', sAddLeaf A P val ps node w = .some w' ∧ RS w' V' ∧ w'.vals = w.vals := by
  obtain ⟨w1, a1, a2, a3, a4, a5, a6, a7, a8, a9⟩ := h.putLeaf hP1 hP2 hval
  have hrd := rd_same a6
  generalize hq : w.rd P = q at *
  generalize hn : w.rd A = n at *
  have hg1 : w1.store.get n = .some node := by rw [a4 _ (Ne.symm hqn)]; exact hg
  obtain ⟨sp, c, hh, hrel⟩ := h.branchOf hg ho
  have hnode : node ≠ w.next := Nat.ne_of_lt (h.alloc hg)
  have hh1 : w1.heap node = .branch sp c := by rw [a5]; simp only [SWorld.alloc, if_neg hnode]; exact hh
  have hrel1 : NodeRel w1 (.branch sp c) (.branch n ch) := hrel.congr (fun s _ => hrd s) a8
  have hspl : sp.len = n.length := by rw [← hrel.1]; simp
  have hle : sp.len ≤ P.len := by
    have := congrArg List.length hd
    rw [← hq] at this
    simp at this; omega
  have hNoOwn : ∀ a, NoOwn w a → NoOwn w1 a := by
    intro a ha k p s c hg' hh' hl
    rw [a5] at hh'
    by_cases e : k = q
    · subst e; rw [a3] at hg'; cases hg'
      simp [SWorld.alloc] at hh'
    · rw [a4 _ e] at hg'
      exact ha k p s c hg' (alloc_branch hh') hl
  unfold sAddLeaf
  simp only [hq, a1, hh1, from_eq hle]
  generalize hs0 : (⟨P.arr, P.off + sp.len, P.len - sp.len, P.cap - sp.len⟩ : Slice) = s0
  have r0 : w1.rd s0 = i :: s := by rw [← hs0, ← SWorld.rd_drop, hrd, hq, hspl, hd]
  have hz : s0.len ≠ 0 := by intro e; rw [SWorld.rd_eq_nil.mpr e] at r0; simp at r0
  have hnib : w1.nib s0 0 = i := by
    obtain ⟨t, ht⟩ := SWorld.rd_cons (w := w1) hz
    rw [r0] at ht; simp at ht; exact ht.1.symm
  have e0 : s0.arr = P.arr := by rw [← hs0]
  simp only [sPutChild, if_neg hz, hnib]
  have ho1 : vset V q (.leaf q value) n = .some (.branch n ch) := by rw [vset_ne _ _ _ (Ne.symm hqn), ho]
  have hw := a2.write (c' := sSet c i ⟨s0, zeroHash, true⟩) hg1 hh1
    (o := .branch n (setChild ch i ⟨i :: s, zeroHash, true⟩)) (setRel hrel1 ⟨rfl, fun _ => ⟨r0, rfl⟩⟩) (by
      intro j hj
      by_cases e : j = i
      · simp only [sSet, e, if_true]
        refine ⟨by rw [e0, a7]; exact hP1, NoOwn.tame ?_⟩
        rw [e0]; exact hNoOwn _ hP2
      · simp only [sSet, e, if_false] at hj ⊢
        exact a2.childOk hg1 hh1 hj)
  have hself : (w1.write node (.branch sp (sSet c i ⟨s0, zeroHash, true⟩))).heap node =
      .branch sp (sSet c i ⟨s0, zeroHash, true⟩) := by simp [SWorld.write]
  have hpre : ∀ {p s' c'}, (w1.write node (.branch sp (sSet c i ⟨s0, zeroHash, true⟩))).heap p = .branch s' c' →
      ∃ c0, w1.heap p = .branch s' c0 := by
    intro p s' c' hp'
    by_cases e : p = node
    · subst e; rw [hself] at hp'; cases hp'; exact ⟨c, hh1⟩
    · simp only [SWorld.write, if_neg e] at hp'; exact ⟨c', hp'⟩
  have hst2 : (w1.write node (.branch sp (sSet c i ⟨s0, zeroHash, true⟩))).store = w1.store := rfl
  have har2 : (w1.write node (.branch sp (sSet c i ⟨s0, zeroHash, true⟩))).arrs = w1.arrs := rfl
  have hna2 : (w1.write node (.branch sp (sSet c i ⟨s0, zeroHash, true⟩))).nextArr = w1.nextArr := rfl
  have hva2 : (w1.write node (.branch sp (sSet c i ⟨s0, zeroHash, true⟩))).vals = w1.vals := rfl
  generalize w1.write node (.branch sp (sSet c i ⟨s0, zeroHash, true⟩)) = w2 at hw hself hpre hst2 har2 hna2 hva2
  obtain ⟨w3, c1, c2, c3, c4, c5, c6, c7⟩ := hw.putSame (k := n) (p := node) (by rw [hst2]; exact hg1)
  have hrdsp : w2.rd sp = n := by rw [rd_same har2, hrd, hrel.1]
  rw [hrdsp, c1]
  have ht : Tame0 w3 A := by
    rcases hA2 with hA2 | hA2
    · intro hl; exact absurd hA2 hl
    · apply NoOwn.tame0
      intro k p s' c' hg' hh' hl
      rw [c3, hst2] at hg'
      rw [c4] at hh'
      obtain ⟨c0, hc0⟩ := hpre hh'
      exact hNoOwn _ hA2.noOwn k p s' c0 hg' hc0 hl
  obtain ⟨w4, d1, d2, d3⟩ := s_inv (ps := ps) (cur := A) c2
    ((hp.congr (st' := w2.store) (fun k hk => by rw [hst2]; exact a4 k (fun e => hqk (e ▸ hk)))).congr (fun k _ => c3 k))
    (by rw [c6, hna2, a7]; exact hA1) ht (by rw [rd_same c5, rd_same har2, hrd, hn]; exact hv)
  exact ⟨w4, d1, d2, d3.trans (c7.trans (hva2.trans a8))⟩

theorem s_upd {fuel : Nat} {w : SWorld} {V V' : View} {ps : List Ptr} {ks : List Nibbles} {A P val : Slice}
    {value : Bytes} (L : Loc V) (h : RS w V) (hp : SPath w.store ps ks)
    (hA1 : A.arr < w.nextArr) (hA2 : A.len = 0 ∨ NoRef w A.arr ∧ A.arr ≠ P.arr)
    (hP1 : P.arr < w.nextArr) (hP2 : NoOwn w P.arr) (hval : w.rdv val = value)
    (hv : updV fuel (w.rd A) (w.rd P) value ks V = .some V') :
    ∃ w', sUpdate grow fuel A P val ps w = .some w' ∧ RS w' V' ∧ w'.vals = w.vals := by
  induction fuel generalizing w ps ks A with
  | zero => simp [updV] at hv
  | succ fuel ih =>
    unfold updV at hv
    unfold sUpdate
    have hvl : val.len = value.length := by rw [← hval]; simp
    by_cases h1 : prefixOf (w.rd A) (w.rd P) = true
    · simp only [h1, not_true_eq_false, if_false] at hv ⊢
      by_cases h2 : w.rd A = w.rd P
      · simp only [h2, if_true] at hv ⊢
        by_cases h3 : w.rd P ∈ ks
        · simp [h3] at hv
        · simp only [h3, not_false_eq_true, if_true] at hv
          by_cases h4 : value.length = 0
          · rw [if_pos h4] at hv
            rw [if_pos (by omega)]
            obtain ⟨w1, a1, a2, a3, a4, a5, a6, a7, a8⟩ := h.del (w.rd P)
            obtain ⟨w2, b1, b2, b3⟩ := s_prune (grow := grow) (ps := ps) (cur := A) a2
              (hp.congr (fun q hq => by rw [a3, if_neg (fun (e : q = w.rd P) => h3 (e ▸ hq))])) (by rw [rd_same a5, h2]; exact hv)
            exact ⟨w2, by rw [a1]; exact b1, b2, b3.trans a7⟩
          · rw [if_neg h4] at hv
            rw [if_neg (by omega)]
            have hAown : A.len ≠ 0 → NoOwn w A.arr := by
              rcases hA2 with e | ⟨e, _⟩
              · intro hl; exact absurd e hl
              · intro _; exact e.noOwn
            obtain ⟨w1, a1, a2, a3, a4, a5, a6, a7, a8, a9⟩ := h.putNew (w.rd P) (n := .leaf A val)
              (o := .leaf (w.rd P) value) ⟨h2, hval⟩ (by
                rintro s rfl
                exact ⟨hA1, fun hl => (hAown hl).tame hl⟩) (by intro s c e; cases e)
            have ht : Tame0 w1 A := by
              intro hl
              apply NoOwn.tame0 ?_ hl
              intro k p s' c' hg' hh' hl'
              rw [a5] at hh'
              by_cases e : k = w.rd P
              · subst e; rw [a3] at hg'; cases hg'
                simp [SWorld.alloc] at hh'
              · rw [a4 _ e] at hg'
                exact hAown hl k p s' c' hg' (alloc_branch hh') hl'
            obtain ⟨w2, b1, b2, b3⟩ := s_inv (ps := ps) (cur := A) a2
              (hp.congr (fun q hq => a4 q (fun e => h3 (e ▸ hq)))) (by rw [a7]; exact hA1) ht
              (by rw [rd_same a6, h2]; exact hv)
            exact ⟨w2, by rw [a1]; exact b1, b2, b3.trans a8⟩
      · simp only [h2, if_false] at hv ⊢
        split at hv
        next pp ch ho =>
          split at hv
          next hc =>
            obtain ⟨hpp, hlen, hqk, hqn⟩ := hc
            subst hpp
            cases hg : w.store.get (w.rd A) with
            | none => rw [h.none hg] at ho; cases ho
            | some node =>
              simp only
              obtain ⟨sp, c, hh, hrel⟩ := h.branchOf hg ho
              have hspl : sp.len = A.len := by
                have := congrArg List.length hrel.1; simpa using this
              split at hv
              · simp at hv
              next i s hd =>
                have hlt : sp.len < P.len := by
                  have := congrArg List.length hd
                  simp at this; omega
                have hnib : w.nib P sp.len = i := by
                  obtain ⟨t, ht⟩ := SWorld.drop_nib (w := w) hlt
                  have hd' : (w.rd P).drop sp.len = i :: s := by rw [← hd, SWorld.rd_length, hspl]
                  rw [hd'] at ht; simp at ht; exact ht.1.symm
                simp only [hh, if_pos hlt, hnib]
                by_cases h3 : (ch i).exist = true
                · rw [if_pos h3] at hv
                  rw [if_pos (by rw [(hrel.2 i).1]; exact h3)]
                  have hsuf := ((hrel.2 i).2 h3).1
                  obtain ⟨t, ht⟩ := (L.child ho h3).1
                  have hsl : (c i).suffix.len ≠ 0 := by
                    have := congrArg List.length hsuf
                    rw [ht] at this; simp at this; omega
                  have hspv : sp.arr < w.nextArr := h.valid hg (by rw [hh]; exact .inl rfl)
                  have happ := sAppend_rd (grow := grow) w sp.clip (c i).suffix
                  obtain ⟨f1, f2, f3, f4, f5⟩ := sAppend_same (grow := grow) w sp.clip (c i).suffix
                  obtain ⟨g1, g2⟩ := sAppend_arr (grow := grow) w sp.clip (c i).suffix hspv
                  have hfr := fun {a x} ha => sAppend_frame (grow := grow) w sp.clip (c i).suffix (a := a) (x := x) ha
                    (.inl (by simp only [Slice.clip]; omega))
                  generalize sAppend grow w sp.clip (c i).suffix = r at happ f1 f2 f3 f4 f5 g1 g2 hfr
                  obtain ⟨A', w1⟩ := r
                  simp only at happ f1 f2 f3 f4 f5 g1 g2 hfr ⊢
                  have hclip : w.rd sp.clip = w.rd A := by rw [← hrel.1]; rfl
                  have hA' : A'.arr = w.nextArr := by
                    rcases g2 with ⟨_, _, g2⟩ | g2
                    · simp only [Slice.clip] at g2; omega
                    · exact g2
                  have hrdv : ∀ s' : Slice, s'.arr < w.nextArr → w1.rd s' = w.rd s' := by
                    intro s' hs'; exact SWorld.rd_congr (fun x _ _ => hfr hs')
                  have hR1 : RS w1 V := h.mem f1 f2 f3 f4 f5 (fun k p s' hg' hu => hrdv s' (h.valid hg' hu))
                  have hNR : NoRef w1 A'.arr := by
                    intro k p s' hg' hu
                    rw [f2] at hg'; rw [f1] at hu
                    rw [hA']; exact h.fresh k p s' hg' hu
                  obtain ⟨w2, b1, b2, b3⟩ := ih (ps := node :: ps) (ks := w.rd A :: ks) (A := A') hR1
                    ⟨by rw [f2]; exact hg, by rw [f2]; exact hp⟩ g1 (.inr ⟨hNR, by rw [hA']; omega⟩)
                    (Nat.lt_of_lt_of_le hP1 f5) (by
                      intro k p s' c' hg' hh' hl'
                      rw [f2] at hg'; rw [f1] at hh'
                      exact hP2 k p s' c' hg' hh' hl')
                    (by rw [rdv_same f4]; exact hval)
                    (by rw [happ, hrdv P hP1, hclip, hsuf]; exact hv)
                  exact ⟨w2, b1, b2, b3.trans f4⟩
                · rw [if_neg h3] at hv
                  rw [if_neg (by rw [(hrel.2 i).1]; exact h3)]
                  exact s_addLeaf h hp hg ho hA1 (hA2.imp id (·.1)) hP1 hP2 hval hqk hqn hd hv
          · simp at hv
        · simp at hv
    · simp only [h1, not_false_eq_true, if_true, Bool.false_eq_true] at hv ⊢
      split at hv
      next hc =>
        obtain ⟨hqk, hpk, hl1, hl2⟩ := hc
        split at hv
        next i s j r hd1 hd2 =>
          rcases hA2 with e | ⟨hA2, hA3⟩
          · exfalso
            rw [SWorld.rd_eq_nil.mpr e] at h1
            exact h1 rfl
          · exact s_split h hp hA1 hA2 hA3 hP1 hP2 hval hqk hpk hd1 hd2 hv
        · simp at hv
      · simp at hv

/-! ## Simulation of `updateHashes` -/

theorem sHashObj_eq {H : Bytes → Hash32} {w : SWorld} {n o} (h : NodeRel w n o) : sHashObj H w n = objHash H o := by
  cases n with
  | leaf p v =>
    cases o with
    | branch _ _ => exact h.elim
    | leaf p' v' => simp only [sHashObj, objHash, h.1, h.2]
  | branch p ch =>
    cases o with
    | leaf _ _ => exact h.elim
    | branch p' ch' =>
      simp only [sHashObj, objHash]
      congr 1
      unfold sBranchBytes branchBytes
      have hl : p.len = p'.length := by rw [← h.1]; simp
      rw [sExisting_idx h, existing_idx, hl, h.1]
      simp only [List.length_map, List.map_map]
      congr 2
      apply List.map_congr_left
      intro i hi
      obtain ⟨h1, h2⟩ := (h.2 i).2 (liveIdx_mem hi)
      have hl : (ch i).suffix.len = (ch' i).suffix.length := by rw [← h1]; simp
      simp only [Function.comp_apply, hl, h1, h2]

/-- A slice that may be appended to: it has no spare capacity or no stored node looks at its array. -/
def Scratch (w : SWorld) (s : Slice) : Prop := s.cap ≤ s.len ∨ NoRef w s.arr

/-- What a computation that appends to `s` may change. -/
structure HFrame (s : Slice) (w w' : SWorld) : Prop where
  arrs : ∀ {a x}, a < w.nextArr → (s.cap ≤ s.len ∨ a ≠ s.arr ∨ x < s.off + s.len) → w'.arrs a x = w.arrs a x
  next : w.nextArr ≤ w'.nextArr
  vals : w'.vals = w.vals
  get : ∀ q, w'.store.get q = w.store.get q
  noRef : ∀ {a}, NoRef w a → NoRef w' a

theorem HFrame.refl (s w) : HFrame s w w := ⟨fun _ _ => rfl, Nat.le_refl _, rfl, fun _ => rfl, id⟩

theorem HFrame.trans {s w w' w''} (h : HFrame s w w') (h' : HFrame s w' w'') : HFrame s w w'' where
  arrs ha hx := (h'.arrs (Nat.lt_of_lt_of_le ha h.next) hx).trans (h.arrs ha hx)
  next := Nat.le_trans h.next h'.next
  vals := h'.vals.trans h.vals
  get q := (h'.get q).trans (h.get q)
  noRef hn := h'.noRef (h.noRef hn)

theorem HFrame.rd {s w w'} (h : HFrame s w w') (hs : s.arr < w.nextArr) : w'.rd s = w.rd s :=
  SWorld.rd_congr fun _ _ hx => h.arrs hs (.inr (.inr hx))

theorem HFrame.scratch {s w w'} (h : HFrame s w w') (hs : Scratch w s) : Scratch w' s := hs.imp id h.noRef

theorem hframe_append {w V} (h : RS w V) {s : Slice} (hs : s.arr < w.nextArr) (hsc : Scratch w s) (t : Slice) :
    RS (sAppend grow w s t).2 V ∧ HFrame s w (sAppend grow w s t).2 ∧
    (sAppend grow w s t).1.arr < (sAppend grow w s t).2.nextArr ∧
    Scratch (sAppend grow w s t).2 (sAppend grow w s t).1 ∧
    ∀ w', HFrame (sAppend grow w s t).1 (sAppend grow w s t).2 w' → HFrame s w w' := by
  obtain ⟨f1, f2, f3, f4, f5⟩ := sAppend_same (grow := grow) w s t
  obtain ⟨g1, g2⟩ := sAppend_arr (grow := grow) w s t hs
  have hlen := sAppend_len (grow := grow) w s t
  have hcap : (sAppend grow w s t).1.arr = s.arr → s.len + t.len ≤ s.cap → (sAppend grow w s t).1.cap = s.cap := by
    intro _ h; unfold sAppend; rw [if_pos h]
  have hfr : ∀ {a x}, a < w.nextArr → (s.cap ≤ s.len ∨ a ≠ s.arr ∨ x < s.off + s.len) →
      (sAppend grow w s t).2.arrs a x = w.arrs a x := by
    intro a x ha hx
    rcases hx with hx | hx
    · by_cases ht : s.cap < s.len + t.len
      · exact sAppend_frame w s t ha (.inl ht)
      · unfold sAppend
        rw [if_pos (by omega)]
        simp only
        rw [if_neg (by omega)]
    · exact sAppend_frame w s t ha (.inr hx)
  have hF : HFrame s w (sAppend grow w s t).2 := by
    refine ⟨hfr, f5, f4, fun q => by rw [f2], ?_⟩
    intro a ha k p s' hg hu
    rw [f2] at hg; rw [f1] at hu
    exact ha k p s' hg hu
  have hR : RS (sAppend grow w s t).2 V := by
    refine h.mem f1 f2 f3 f4 f5 ?_
    intro k p s' hg hu
    apply SWorld.rd_congr
    intro x _ _
    apply hfr (h.valid hg hu)
    rcases hsc with hsc | hsc
    · exact .inl hsc
    · exact .inr (.inl (hsc k p s' hg hu))
  refine ⟨hR, hF, g1, ?_, ?_⟩
  · rcases g2 with ⟨e1, e2, e3⟩ | e
    · rcases hsc with hsc | hsc
      · left; rw [hcap e1 e3, hlen]; omega
      · right; rw [e1]; exact hF.noRef hsc
    · right; rw [e]; exact hF.noRef h.fresh
  · intro w' hF'
    refine ⟨?_, Nat.le_trans f5 hF'.next, hF'.vals.trans f4, fun q => (hF'.get q).trans (by rw [f2]), fun hn => hF'.noRef (hF.noRef hn)⟩
    intro a x ha hx
    rw [hF'.arrs (Nat.lt_of_lt_of_le ha f5) ?_, hfr ha hx]
    rcases g2 with ⟨e1, e2, e3⟩ | e
    · rw [e1, e2, hlen, hcap e1 e3]
      rcases hx with hx | hx | hx
      · left; omega
      · exact .inr (.inl hx)
      · right; right; omega
    · right; left; rw [e]; omega

theorem s_hashLoop {rec : Slice → SWorld → Option (Hash32 × SWorld)} {recV : Nibbles → View → Option (Hash32 × View)}
    (hrec : ∀ {w V s hh V'}, RS w V → s.arr < w.nextArr → Scratch w s → recV (w.rd s) V = .some (hh, V') →
      ∃ w', rec s w = .some (hh, w') ∧ RS w' V' ∧ HFrame s w w')
    {w : SWorld} {V V' : View} {s : Slice} {k : Nibbles} {p : Ptr} {is : List Nib}
    (h : RS w V) (hs : s.arr < w.nextArr) (hsc : Scratch w s) (hk : w.rd s = k) (hp : w.store.get k = .some p)
    (hv : hashLoopV recV k is V = .some V') :
    ∃ w', sHashLoop grow rec s p is w = .some w' ∧ RS w' V' ∧ HFrame s w w' := by
  induction is generalizing w V with
  | nil => simp only [hashLoopV, Option.some.injEq] at hv; subst hv; exact ⟨w, rfl, h, HFrame.refl _ _⟩
  | cons i is ih =>
    simp only [hashLoopV] at hv
    split at hv
    next pp ch ho =>
      obtain ⟨sp, c, hh, hrel⟩ := h.branchOf hp ho
      unfold sHashLoop
      simp only [hh]
      have hcond : ((c i).exist = true ∧ (c i).hash = zeroHash) ↔ ((ch i).exist = true ∧ (ch i).hash = zeroHash) := by
        constructor
        · rintro ⟨h1, h2⟩
          have h1' : (ch i).exist = true := by rw [← (hrel.2 i).1]; exact h1
          exact ⟨h1', by rw [← ((hrel.2 i).2 h1').2]; exact h2⟩
        · rintro ⟨h1, h2⟩
          exact ⟨by rw [(hrel.2 i).1]; exact h1, by rw [((hrel.2 i).2 h1).2]; exact h2⟩
      by_cases hc : (ch i).exist = true ∧ (ch i).hash = zeroHash
      · rw [if_pos hc] at hv
        rw [if_pos (hcond.mpr hc)]
        split at hv
        · simp at hv
        next hx V1 hr =>
          have happ := sAppend_rd (grow := grow) w s (c i).suffix
          obtain ⟨r1, r2, r3, r4, r5⟩ := hframe_append (grow := grow) h hs hsc (c i).suffix
          generalize sAppend grow w s (c i).suffix = r at happ r1 r2 r3 r4 r5
          obtain ⟨s', w1⟩ := r
          simp only at happ r1 r2 r3 r4 r5 ⊢
          rw [hk, ((hrel.2 i).2 hc.1).1] at happ
          obtain ⟨w2, a1, a2, a3⟩ := hrec r1 r3 r4 (by rw [happ]; exact hr)
          have hF := r5 w2 a3
          simp only [a1]
          split at hv
          next pp2 ch2 ho2 =>
            have hg2 : w2.store.get k = .some p := by rw [hF.get]; exact hp
            obtain ⟨sp2, c2, hh2, hrel2⟩ := a2.branchOf hg2 ho2
            simp only [hh2]
            have hrel3 : NodeRel w2 (.branch sp2 (sSet c2 i { c2 i with hash := hx }))
                (.branch pp2 (setChild ch2 i { ch2 i with hash := hx })) :=
              setRel hrel2 ⟨(hrel2.2 i).1, fun e => ⟨((hrel2.2 i).2 e).1, rfl⟩⟩
            have hw := a2.write (c' := sSet c2 i { c2 i with hash := hx }) hg2 hh2 hrel3 (by
              intro j hj
              by_cases e : j = i
              · subst e
                simp only [sSet, if_true] at hj ⊢
                exact a2.childOk hg2 hh2 hj
              · simp only [sSet, e, if_false] at hj ⊢
                exact a2.childOk hg2 hh2 hj)
            have hFw : HFrame s w2 (w2.write p (.branch sp2 (sSet c2 i { c2 i with hash := hx }))) := by
              refine ⟨fun _ _ => rfl, Nat.le_refl _, rfl, fun _ => rfl, ?_⟩
              intro a ha q p' s0 hg' hu
              by_cases e : p' = p
              · subst e
                simp only [SWorld.write, if_true] at hu
                apply ha q p' s0 hg'
                rw [hh2]
                rcases hu with rfl | ⟨j, hj, rfl⟩
                · exact .inl rfl
                · by_cases e : j = i
                  · subst e
                    simp only [sSet, if_true] at hj ⊢
                    exact .inr ⟨j, hj, rfl⟩
                  · simp only [sSet, e, if_false] at hj ⊢
                    exact .inr ⟨j, hj, rfl⟩
              · simp only [SWorld.write, if_neg e] at hu
                exact ha q p' s0 hg' hu
            have hF2 := hF.trans hFw
            obtain ⟨w3, b1, b2, b3⟩ := ih hw (Nat.lt_of_lt_of_le hs hF2.next) (hF2.scratch hsc)
              ((hF2.rd hs).trans hk) hg2 hv
            exact ⟨w3, b1, b2, hF2.trans b3⟩
          · simp at hv
      · rw [if_neg hc] at hv
        rw [if_neg (fun e => hc (hcond.mp e))]
        exact ih h hs hsc hk hp hv
    · simp at hv

theorem s_updH {H : Bytes → Hash32} {fuel : Nat} {w : SWorld} {V V' : View} {s : Slice} {hh : Hash32}
    (h : RS w V) (hs : s.arr < w.nextArr) (hsc : Scratch w s) (hv : updHV H fuel (w.rd s) V = .some (hh, V')) :
    ∃ w', sUpdateHashes grow H fuel s w = .some (hh, w') ∧ RS w' V' ∧ HFrame s w w' := by
  induction fuel generalizing w V V' s hh with
  | zero => simp [updHV] at hv
  | succ fuel ih =>
    unfold updHV at hv
    unfold sUpdateHashes
    split at hv
    · simp at hv
    next p v ho =>
      simp only [Option.some.injEq, Prod.mk.injEq] at hv
      obtain ⟨rfl, rfl⟩ := hv
      cases hg : w.store.get (w.rd s) with
      | none => rw [h.none hg] at ho; cases ho
      | some ptr =>
        obtain ⟨o, h1, h2⟩ := h.some hg
        rw [ho] at h1; cases h1
        simp only
        cases hn : w.heap ptr with
        | branch _ _ => rw [hn] at h2; exact h2.elim
        | leaf lp lv =>
          rw [hn] at h2
          exact ⟨w, by simp only [sHashObj_eq h2], h, HFrame.refl _ _⟩
    next pp ch ho =>
      cases hg : w.store.get (w.rd s) with
      | none => rw [h.none hg] at ho; cases ho
      | some ptr =>
        obtain ⟨sp, c, hn, hrel⟩ := h.branchOf hg ho
        simp only [hn]
        split at hv
        · simp at hv
        next V1 hl =>
          obtain ⟨w1, a1, a2, a3⟩ := s_hashLoop (grow := grow) (rec := sUpdateHashes grow H fuel)
            (fun hR h1 h2 hr => ih hR h1 h2 hr) h hs hsc rfl hg hl
          simp only [a1]
          split at hv
          next p2 ch2 ho2 =>
            split at hv
            next he =>
              simp only [Option.some.injEq, Prod.mk.injEq] at hv
              obtain ⟨rfl, rfl⟩ := hv
              have hg2 : w1.store.get (w.rd s) = .some ptr := by rw [a3.get]; exact hg
              obtain ⟨sp2, c2, hn2, hrel2⟩ := a2.branchOf hg2 ho2
              obtain ⟨w2, b1, b2, b3, b4, b5, b6, b7⟩ := a2.putSame hg2
              have hk2 : w1.rd sp2 = w.rd s := hrel2.1.trans he
              have hrel3 : NodeRel w2 (.branch sp2 c2) (.branch p2 ch2) := hrel2.congr (fun s _ => rd_same b5 s) b7
              refine ⟨w2, ?_, b2, a3.trans ⟨fun _ _ => by rw [b5], Nat.le_of_eq b6.symm, b7, b3, ?_⟩⟩
              · simp only [hn2, hk2, b1, Option.map_some, sHashObj_eq hrel3]
              · intro a ha q p' s0 hg' hu
                rw [b3] at hg'; rw [b4] at hu
                exact ha q p' s0 hg' hu
            · simp at hv
          · simp at hv

end Nimiq.Tree
