import Verif.Beserial.Heap
/-!
# C121: what `Marshal` writes to
-/
namespace Nimiq.Beserial
open Spec

/-- The slice lies within its array (nil does, whatever there is). -/
def Buf.Valid (h : Heap) (b : Buf) : Prop :=
  b.len ≤ b.cap ∧ (b.cap = 0 ∨ (b.arr < h.length ∧ b.off + b.cap ≤ (h[b.arr]?.getD []).length))

/-- Byte `j` of array `i` is behind the visible bytes of `b`, within its capacity. -/
def Buf.Spare (b : Buf) (i j : Nat) : Prop := i = b.arr ∧ b.off + b.len ≤ j ∧ j < b.off + b.cap

/-- From `h` to `h'` no array was removed or resized, and no byte was written but in the spare capacity of `b`. -/
def Frame (h : Heap) (b : Buf) (h' : Heap) : Prop :=
  h.length ≤ h'.length ∧ ∀ i, i < h.length → (h'[i]?.getD []).length = (h[i]?.getD []).length ∧
    ∀ j, ¬ b.Spare i j → (h'[i]?.getD [])[j]? = (h[i]?.getD [])[j]?

/-- `b'` is `b` made longer in place, or lies in an array that is new since `h`, or is nil. -/
def Ext (h : Heap) (b b' : Buf) : Prop :=
  (b'.arr = b.arr ∧ b'.off = b.off ∧ b'.cap = b.cap ∧ b.len ≤ b'.len) ∨ h.length ≤ b'.arr ∨ b' = Buf.nil

/-- The slice `r` exists in `h` and does not touch the spare capacity of `b`. -/
def Clear (h : Heap) (b : Buf) (r : Ref) : Prop :=
  r.len = 0 ∨ (r.Valid h ∧ ∀ j, r.off ≤ j → j < r.off + r.len → ¬ b.Spare r.arr j)

/-- The appends without memory: all slices show what they showed in `h`. -/
def pureActs (h : Heap) : List Act → Bytes → Bytes
  | [], b => b
  | .append s :: as, b => pureActs h as (b ++ s.bytes h)
  | .reset :: as, _ => pureActs h as []

def pureRun (h : Heap) (x : Trace) (b : Bytes) : Out Bytes :=
  match x with
  | (as, .ok ()) => .ok (pureActs h as b)
  | (_, .err e) => .err e
  | (_, .panic) => .panic

/-- An outcome as a caller sees it: a slice by its bytes. -/
def shown (x : Heap × Out Buf) : Out Bytes :=
  match x.2 with
  | .ok b => .ok (b.ref.bytes x.1)
  | .err e => .err e
  | .panic => .panic

/-- The slices that are appended. -/
def actRefs : List Act → List Ref
  | [] => []
  | .append (.slice r) :: as => r :: actRefs as
  | .append (.lit _) :: as => actRefs as
  | .reset :: as => actRefs as

theorem Frame.refl (h : Heap) (b : Buf) : Frame h b h := ⟨Nat.le_refl _, fun _ _ => ⟨rfl, fun _ _ => rfl⟩⟩
theorem Ext.refl (h : Heap) (b : Buf) : Ext h b b := .inl ⟨rfl, rfl, rfl, Nat.le_refl _⟩

theorem Frame.trans {h h1 h2 : Heap} {b b1 : Buf} (f1 : Frame h b h1) (e1 : Ext h b b1) (f2 : Frame h1 b1 h2) :
    Frame h b h2 := by
  refine ⟨Nat.le_trans f1.1 f2.1, fun i hi => ?_⟩
  obtain ⟨l1, s1⟩ := f1.2 i hi
  obtain ⟨l2, s2⟩ := f2.2 i (Nat.lt_of_lt_of_le hi f1.1)
  refine ⟨l2.trans l1, fun j hj => ?_⟩
  rw [s2 j ?_, s1 j hj]
  intro hs
  rcases e1 with ⟨ha, ho, hc, hl⟩ | hn | rfl
  · apply hj
    obtain ⟨x1, x2, x3⟩ := hs
    refine ⟨x1.trans ha, ?_, ?_⟩
    · rw [ho] at x2; omega
    · rw [ho, hc] at x3; exact x3
  · obtain ⟨x1, _⟩ := hs
    omega
  · obtain ⟨_, x2, x3⟩ := hs
    simp only [Buf.nil] at x2 x3
    omega

theorem Ext.trans {h h1 : Heap} {b b1 b2 : Buf} (hl : h.length ≤ h1.length) (hv : b2.len ≤ b2.cap) (e1 : Ext h b b1)
    (e2 : Ext h1 b1 b2) : Ext h b b2 := by
  rcases e2 with ⟨ha, ho, hc, hl2⟩ | hn | hn
  · rcases e1 with ⟨ha', ho', hc', hl'⟩ | hn' | hn'
    · exact .inl ⟨ha.trans ha', ho.trans ho', hc.trans hc', Nat.le_trans hl' hl2⟩
    · exact .inr (.inl (by omega))
    · subst hn'
      refine .inr (.inr ?_)
      obtain ⟨x, y, z, w⟩ := b2
      simp only [Buf.nil] at ha ho hc hv
      have hz : z = 0 := by omega
      simp [Buf.nil, ha, ho, hc, hz]
  · exact .inr (.inl (Nat.le_trans hl hn))
  · exact .inr (.inr hn)

theorem getElem?_splice {a s : Bytes} {k : Nat} (hk : k + s.length ≤ a.length) (j : Nat) :
    (splice a k s)[j]? = if k ≤ j ∧ j < k + s.length then s[j - k]? else a[j]? := by
  unfold splice
  have h1 : (a.take k).length = k := by rw [List.length_take]; omega
  by_cases hj : j < k
  · rw [if_neg (by omega), List.append_assoc, List.getElem?_append_left (by omega), List.getElem?_take_of_lt hj]
  · rw [List.append_assoc, List.getElem?_append_right (by omega), h1]
    by_cases hj2 : j < k + s.length
    · rw [if_pos ⟨by omega, hj2⟩, List.getElem?_append_left (by omega)]
    · rw [if_neg (by omega), List.getElem?_append_right (by omega), List.getElem?_drop]
      congr 1
      omega

theorem length_splice {a s : Bytes} {k : Nat} (hk : k + s.length ≤ a.length) : (splice a k s).length = a.length := by
  unfold splice
  simp only [List.length_append, List.length_take, List.length_drop]
  omega

theorem splice_nil (a : Bytes) (k : Nat) : splice a k [] = a := by simp [splice]

/-- What a slice shows depends only on its own bytes. -/
theorem bytes_ext {h h' : Heap} {r : Ref}
    (he : ∀ j, r.off ≤ j → j < r.off + r.len → (h'[r.arr]?.getD [])[j]? = (h[r.arr]?.getD [])[j]?) :
    r.bytes h' = r.bytes h := by
  apply List.ext_getElem?
  intro j
  unfold Ref.bytes
  by_cases hj : j < r.len
  · rw [List.getElem?_take_of_lt hj, List.getElem?_take_of_lt hj, List.getElem?_drop, List.getElem?_drop]
    exact he _ (by omega) (by omega)
  · rw [List.getElem?_eq_none, List.getElem?_eq_none]
    · rw [List.length_take]; omega
    · rw [List.length_take]; omega

theorem Clear.bytes_eq {h h' : Heap} {b : Buf} {r : Ref} (hc : Clear h b r) (hf : Frame h b h') : r.bytes h' = r.bytes h := by
  apply bytes_ext
  intro j h1 h2
  rcases hc with h0 | ⟨hv, hc⟩
  · omega
  · exact (hf.2 r.arr hv.1).2 j (hc j h1 h2)

theorem Clear.step {h h' : Heap} {b b' : Buf} {r : Ref} (hc : Clear h b r) (hf : Frame h b h') (he : Ext h b b') :
    Clear h' b' r := by
  rcases hc with h0 | ⟨hv, hc⟩
  · exact .inl h0
  · refine .inr ⟨⟨Nat.lt_of_lt_of_le hv.1 hf.1, ?_⟩, ?_⟩
    · rw [(hf.2 r.arr hv.1).1]; exact hv.2
    · intro j h1 h2 ⟨x1, x2, x3⟩
      rcases he with ⟨ha, ho, hcp, hl⟩ | hn | rfl
      · exact hc j h1 h2 ⟨x1.trans ha, by rw [ho] at x2; omega, by rw [ho, hcp] at x3; exact x3⟩
      · have := hv.1
        omega
      · simp only [Buf.nil] at x2 x3
        omega

theorem appendH_spec {grow : Nat → Nat → Nat} (hg : ∀ c n, n ≤ grow c n) {h : Heap} {b : Buf} (hv : b.Valid h) (s : Bytes) :
    Frame h b (appendH grow h b s).1 ∧ Ext h b (appendH grow h b s).2 ∧
      (appendH grow h b s).2.Valid (appendH grow h b s).1 ∧
      (appendH grow h b s).2.ref.bytes (appendH grow h b s).1 = b.ref.bytes h ++ s ∧
      (appendH grow h b s).2.len = b.len + s.length := by
  unfold appendH
  by_cases hc : b.len + s.length ≤ b.cap
  · rw [if_pos hc]
    dsimp only
    by_cases hs : s = []
    · subst hs
      have hset : h.set b.arr (splice (h[b.arr]?.getD []) (b.off + b.len) []) = h := by
        rw [splice_nil]
        apply List.ext_getElem?
        intro i
        rw [List.getElem?_set]
        by_cases hi : b.arr = i
        · subst hi
          rw [if_pos rfl]
          by_cases hl : b.arr < h.length
          · rw [if_pos hl, List.getElem?_eq_getElem hl]; rfl
          · rw [if_neg hl, List.getElem?_eq_none (by omega)]
        · rw [if_neg hi]
      rw [hset]
      exact ⟨.refl _ _, .inl ⟨rfl, rfl, rfl, by simp⟩, hv, by simp [Buf.ref], rfl⟩
    · have hn : 0 < s.length := List.length_pos_iff.2 hs
      have hva : b.arr < h.length ∧ b.off + b.cap ≤ (h[b.arr]?.getD []).length := hv.2.resolve_left (by omega)
      have hsp : b.off + b.len + s.length ≤ (h[b.arr]?.getD []).length := by omega
      have hget : ∀ i, (h.set b.arr (splice (h[b.arr]?.getD []) (b.off + b.len) s))[i]?.getD [] =
          if i = b.arr then splice (h[b.arr]?.getD []) (b.off + b.len) s else h[i]?.getD [] := by
        intro i
        rw [List.getElem?_set]
        by_cases hi : b.arr = i
        · rw [if_pos hi, if_pos hva.1, if_pos hi.symm]; rfl
        · rw [if_neg hi, if_neg fun h0 => hi h0.symm]
      refine ⟨⟨by rw [List.length_set]; exact Nat.le_refl _, fun i hi => ?_⟩, .inl ⟨rfl, rfl, rfl, by dsimp only; omega⟩,
        ⟨hc, .inr ⟨by rw [List.length_set]; exact hva.1, ?_⟩⟩, ?_, rfl⟩
      · rw [hget]
        by_cases hib : i = b.arr
        · rw [if_pos hib]
          subst hib
          refine ⟨length_splice hsp, fun j hj => ?_⟩
          rw [getElem?_splice hsp, if_neg]
          intro hr
          exact hj ⟨rfl, hr.1, by omega⟩
        · rw [if_neg hib]
          exact ⟨rfl, fun _ _ => rfl⟩
      · rw [hget, if_pos rfl, length_splice hsp]
        exact hva.2
      · apply List.ext_getElem?
        intro j
        have hbl : (b.ref.bytes h).length = b.len := by
          apply Ref.bytes_length
          exact ⟨hva.1, by simp only [Buf.ref]; omega⟩
        simp only [Buf.ref, Ref.bytes] at hbl ⊢
        rw [hget, if_pos rfl]
        by_cases hj : j < b.len + s.length
        · rw [List.getElem?_take_of_lt hj, List.getElem?_drop, getElem?_splice hsp]
          by_cases hj2 : j < b.len
          · rw [if_neg (by omega), List.getElem?_append_left (by omega), List.getElem?_take_of_lt hj2, List.getElem?_drop]
          · rw [if_pos ⟨by omega, by omega⟩, List.getElem?_append_right (by omega), hbl]
            congr 1
            omega
        · rw [List.getElem?_eq_none, List.getElem?_eq_none]
          · rw [List.length_append, hbl]; omega
          · rw [List.length_take]; omega
  · rw [if_neg hc]
    dsimp only
    have hg' := hg b.cap (b.len + s.length)
    have hbl : (b.ref.bytes h).length = b.len := by
      rcases hv.2 with h0 | h0
      · have : b.len = 0 := by have := hv.1; omega
        simp [Buf.ref, Ref.bytes, this]
      · apply Ref.bytes_length
        exact ⟨h0.1, by have := hv.1; simp only [Buf.ref]; omega⟩
    refine ⟨⟨by simp, fun i hi => ?_⟩, .inr (.inl (Nat.le_refl _)), ⟨hg', .inr ⟨by simp, ?_⟩⟩, ?_, rfl⟩
    · rw [List.getElem?_append_left hi]
      exact ⟨rfl, fun _ _ => rfl⟩
    · simp [hbl]
      omega
    · have he : (h ++ [b.ref.bytes h ++ s ++ List.replicate (grow b.cap (b.len + s.length) - (b.len + s.length)) 0])[h.length]?.getD []
          = b.ref.bytes h ++ s ++ List.replicate (grow b.cap (b.len + s.length) - (b.len + s.length)) 0 := by simp
      conv => lhs; simp only [Buf.ref, Ref.bytes]
      have he' := he
      simp only [Buf.ref, Ref.bytes] at he'
      rw [he', List.drop_zero]
      exact List.take_left' (by simp only [Buf.ref, Ref.bytes] at hbl; rw [List.length_append, hbl])

/-- Whatever the slices appended, only spare capacity is written. -/
theorem runActs_frame {grow : Nat → Nat → Nat} (hg : ∀ c n, n ≤ grow c n) : ∀ (as : List Act) (h : Heap) (b : Buf), b.Valid h →
    Frame h b (runActs grow as h b).1 ∧ Ext h b (runActs grow as h b).2 ∧
      (runActs grow as h b).2.Valid (runActs grow as h b).1
  | [], h, b, hv => ⟨.refl _ _, .refl _ _, hv⟩
  | .reset :: as, h, b, hv => by
    have e0 : Ext h b Buf.nil := .inr (.inr rfl)
    have ih := runActs_frame hg as h Buf.nil ⟨Nat.le_refl _, .inl rfl⟩
    rw [runActs]
    exact ⟨(Frame.refl h b).trans e0 ih.1, e0.trans (Nat.le_refl _) ih.2.2.1 ih.2.1, ih.2.2⟩
  | .append s :: as, h, b, hv => by
    obtain ⟨f1, e1, v1, _, _⟩ := appendH_spec hg hv (s.bytes h)
    have ih := runActs_frame hg as _ _ v1
    rw [runActs]
    cases hx : appendH grow h b (s.bytes h) with
    | mk h1 b1' =>
      rw [hx] at f1 e1 v1 ih
      exact ⟨f1.trans e1 ih.1, e1.trans f1.1 ih.2.2.1 ih.2.1, ih.2.2⟩

theorem pureActs_congr {h h' : Heap} : ∀ (as : List Act) (b : Bytes), (∀ r ∈ actRefs as, r.bytes h' = r.bytes h) →
    pureActs h' as b = pureActs h as b
  | [], _, _ => rfl
  | .append (.lit x) :: as, b, hr => pureActs_congr as (b ++ x) hr
  | .append (.slice r) :: as, b, hr => by
    have h1 := hr r (by simp [actRefs])
    rw [pureActs, pureActs, Src.bytes, Src.bytes, h1]
    exact pureActs_congr as _ fun q hq => hr q (by simp [actRefs, hq])
  | .reset :: as, b, hr => pureActs_congr as [] hr

theorem runActs_spec {grow : Nat → Nat → Nat} (hg : ∀ c n, n ≤ grow c n) : ∀ (as : List Act) (h : Heap) (b : Buf), b.Valid h →
    (∀ r ∈ actRefs as, Clear h b r) →
    Frame h b (runActs grow as h b).1 ∧ Ext h b (runActs grow as h b).2 ∧
      (runActs grow as h b).2.Valid (runActs grow as h b).1 ∧
      (runActs grow as h b).2.ref.bytes (runActs grow as h b).1 = pureActs h as (b.ref.bytes h)
  | [], h, b, hv, _ => ⟨.refl _ _, .refl _ _, hv, rfl⟩
  | .reset :: as, h, b, hv, hr => by
    have e0 : Ext h b Buf.nil := .inr (.inr rfl)
    have hv0 : Buf.nil.Valid h := ⟨Nat.le_refl _, .inl rfl⟩
    have ih := runActs_spec hg as h Buf.nil hv0 fun r h0 => (hr r h0).step (.refl _ _) e0
    rw [runActs, pureActs]
    have hb : Buf.nil.ref.bytes h = [] := by simp [Buf.nil, Buf.ref, Ref.bytes]
    rw [hb] at ih
    exact ⟨(Frame.refl h b).trans e0 ih.1, e0.trans (Nat.le_refl _) ih.2.2.1.1 ih.2.1, ih.2.2.1, ih.2.2.2⟩
  | .append s :: as, h, b, hv, hr => by
    obtain ⟨f1, e1, v1, b1, _⟩ := appendH_spec hg hv (s.bytes h)
    have hr' : ∀ r ∈ actRefs as, Clear h b r := by
      intro r h0
      apply hr
      cases s with
      | lit x => exact h0
      | slice q => simp [actRefs, h0]
    have ih := runActs_spec hg as _ _ v1 fun r h0 => (hr' r h0).step f1 e1
    rw [runActs, pureActs]
    cases hx : appendH grow h b (s.bytes h) with
    | mk h1 b1' =>
      rw [hx] at f1 e1 v1 b1 ih
      dsimp only at f1 e1 v1 b1 ih ⊢
      rw [b1, pureActs_congr as _ fun r h0 => (hr' r h0).bytes_eq f1] at ih
      exact ⟨f1.trans e1 ih.1, e1.trans f1.1 ih.2.2.1.1 ih.2.1, ih.2.2.1, ih.2.2.2⟩

theorem pureActs_append (h : Heap) : ∀ (as bs : List Act) (b : Bytes), pureActs h (as ++ bs) b = pureActs h bs (pureActs h as b)
  | [], _, _ => rfl
  | .append s :: as, bs, b => by rw [List.cons_append, pureActs, pureActs]; exact pureActs_append h as bs _
  | .reset :: as, bs, b => by rw [List.cons_append, pureActs, pureActs]; exact pureActs_append h as bs _

theorem actRefs_append : ∀ (as bs : List Act), actRefs (as ++ bs) = actRefs as ++ actRefs bs
  | [], _ => rfl
  | .append (.slice r) :: as, bs => by rw [List.cons_append, actRefs, actRefs, actRefs_append as bs, List.cons_append]
  | .append (.lit _) :: as, bs => by rw [List.cons_append, actRefs, actRefs, actRefs_append as bs]
  | .reset :: as, bs => by rw [List.cons_append, actRefs, actRefs, actRefs_append as bs]

theorem pureRun_andThen (h : Heap) (x y : Trace) (b : Bytes) :
    pureRun h (x.andThen y) b = (pureRun h x b >>= fun b => pureRun h y b) := by
  obtain ⟨as, o⟩ := x
  cases o with
  | ok u =>
    cases u
    obtain ⟨bs, o2⟩ := y
    cases o2 with
    | ok u => cases u; simp only [Trace.andThen, pureRun, Out.bind_ok, pureActs_append]
    | err e => rfl
    | panic => rfl
  | err e => rfl
  | panic => rfl

theorem pureRun_all (h : Heap) {α : Type} (f : α → Trace) : ∀ (l : List α) (b : Bytes),
    pureRun h (Trace.all (l.map f)) b = l.foldlM (fun b x => pureRun h (f x) b) b
  | [], b => rfl
  | x :: l, b => by
    rw [List.map_cons, Trace.all, pureRun_andThen, List.foldlM_cons]
    congr 1
    funext b
    exact pureRun_all h f l b

theorem andThen_refs (x y : Trace) : ∀ r ∈ actRefs (x.andThen y).1, r ∈ actRefs x.1 ∨ r ∈ actRefs y.1 := by
  intro r hr
  obtain ⟨as, o⟩ := x
  cases o with
  | ok u =>
    cases u
    simp only [Trace.andThen, actRefs_append] at hr
    exact List.mem_append.1 hr
  | err e => exact .inl hr
  | panic => exact .inl hr

theorem all_refs : ∀ (l : List Trace), ∀ r ∈ actRefs (Trace.all l).1, ∃ x ∈ l, r ∈ actRefs x.1
  | [], r, hr => by simp [Trace.all, actRefs] at hr
  | x :: l, r, hr => by
    rcases andThen_refs x (Trace.all l) r hr with h0 | h0
    · exact ⟨x, by simp, h0⟩
    · obtain ⟨y, hy, hr⟩ := all_refs l r h0
      exact ⟨y, by simp [hy], hr⟩

/-- The slice exists. -/
def Ref.Ok (h : Heap) (r : Ref) : Prop := r.Valid h ∨ r.len = 0

theorem Ref.Ok.length {h : Heap} {r : Ref} (hr : r.Ok h) : (r.bytes h).length = r.len := by
  rcases hr with h0 | h0
  · exact Ref.bytes_length h0
  · simp [Ref.bytes, h0]

/-- The appends of a custom encoder give what its model without memory gives, and append no slice but the value's. -/
structure LawfulE (c : HCodec) : Prop where
  enc : ∀ h v b, (∀ r ∈ c.refs v, r.Ok h) → c.base.enc (c.load h v) b = pureRun h (c.acts v) b
  refs : ∀ v, ∀ r ∈ actRefs (c.acts v).1, r ∈ c.refs v

mutual
/-- All custom types of a type have lawful encoders and are not behind pointers. -/
def EGood : HTy → Prop
  | .custom c => LawfulE c
  | .ptr t => EGood t ∧ isCustom t.erase = false
  | .arr _ t => EGood t
  | .slice t => EGood t
  | .struct fs => EGoodFields fs
  | .num _ | .bool | .str | .byteArr _ | .byteSlice | .unsupported _ _ => True
def EGoodFields : HFields → Prop
  | .nil => True
  | .cons _ t fs => EGood t ∧ EGoodFields fs
end

theorem foldlM_map' {α β : Type} (g : β → α) (f : Bytes → α → Out Bytes) (l : List β) (b : Bytes) :
    (l.map g).foldlM f b = l.foldlM (fun b x => f b (g x)) b := by
  induction l generalizing b with
  | nil => rfl
  | cons x l ih =>
    rw [List.map_cons, List.foldlM_cons, List.foldlM_cons]
    congr 1
    funext b
    exact ih b

theorem foldlM_congr' {α : Type} (f g : Bytes → α → Out Bytes) : ∀ (l : List α) (b : Bytes), (∀ x ∈ l, ∀ b, f b x = g b x) →
    l.foldlM f b = l.foldlM g b
  | [], b, _ => rfl
  | x :: l, b, hx => by
    rw [List.foldlM_cons, List.foldlM_cons, hx x (by simp) b]
    congr 1
    funext b
    exact foldlM_congr' f g l b fun y hy => hx y (by simp [hy])

mutual
/-- The appends give what `marshal` of the model without memory gives. -/
theorem acts_spec : ∀ (t : HTy) (v : t.Cell) (ts : Tags) (h : Heap) (b : Bytes), EGood t → (∀ r ∈ t.refs v, r.Ok h) →
    marshal t.erase (t.load h v) b ts = pureRun h (acts t v ts) b
  | .custom c, v, ts, h, b, hg, hr => by
    rw [marshal, acts]
    exact hg.enc h v b hr
  | .ptr t, v, ts, h, b, hg, hr => by
    have hc : t.erase.customEnc = none := by
      have h0 := hg.2
      cases he : t.erase with
      | custom c => rw [he] at h0; simp [isCustom] at h0
      | _ => rfl
    cases v with
    | none =>
      have hl : HTy.load (.ptr t) h none = none := by rw [HTy.load]; rfl
      rw [hl]
      show marshal (.ptr t.erase) none b ts = _
      simp only [marshal, hc, acts]
      cases ts.optional <;> rfl
    | some x =>
      have ih := fun b => acts_spec t x ts h b hg.1 fun r h0 => hr r (by simpa [HTy.refs] using h0)
      have hl : HTy.load (.ptr t) h (some x) = some (t.load h x) := by rw [HTy.load]; rfl
      rw [hl]
      show marshal (.ptr t.erase) (some (t.load h x)) b ts = _
      simp only [marshal, hc, acts]
      rw [ih]
      cases hx : acts t x ts with
      | mk as o =>
        have hf : pureRun h (if ts.optional = true then Trace.put [.lit [0x01]] else Trace.put []) b =
            .ok (if ts.optional = true then b ++ [0x01] else b) := by
          cases ts.optional <;> rfl
        cases o with
        | ok u => cases u; dsimp only; rw [pureRun_andThen, hf]; rfl
        | err e =>
          dsimp only
          rw [pureRun_andThen, hf, Out.bind_ok]
          simp only [pureRun, pureActs_append]
          rfl
        | panic => dsimp only; rw [pureRun_andThen, hf]; rfl
  | .byteArr n, v, ts, h, b, hg, hr => by
    rw [marshal, acts, HTy.load]
    rfl
  | .arr n t, v, ts, h, b, hg, hr => by
    rw [marshal, acts, pureRun_all]
    have hl : (HTy.load (.arr n t) h v).val = v.val.map (t.load h) := by rw [HTy.load]
    rw [hl, foldlM_map']
    apply foldlM_congr'
    intro x hx b
    exact acts_spec t x {} h b hg fun r h0 => hr r (by
      simp only [HTy.refs, List.mem_flatten, List.mem_map]
      exact ⟨_, ⟨x, hx, rfl⟩, h0⟩)
  | .str, v, ts, h, b, hg, hr => by
    rw [marshal, acts, HTy.load]
    cases ts.lenTag with
    | none => rfl
    | some k => rfl
  | .byteSlice, v, ts, h, b, hg, hr => by
    rw [marshal, acts, HTy.load]
    cases ts.lenTag with
    | none => rfl
    | some k =>
      have := (hr v (by simp [HTy.refs])).length
      dsimp only
      rw [this]
      rfl
  | .slice t, v, ts, h, b, hg, hr => by
    rw [marshal, acts]
    cases ts.lenTag with
    | none => rfl
    | some k =>
      dsimp only
      have hl : HTy.load (.slice t) h v = v.map (t.load h) := by rw [HTy.load]
      have h1 : ∀ b, List.foldlM (fun b x => marshal t.erase x b {}) b (v.map (t.load h)) =
          pureRun h (.all (v.map fun x => acts t x {})) b := by
        intro b
        rw [foldlM_map', pureRun_all]
        apply foldlM_congr'
        intro x hx b
        exact acts_spec t x {} h b hg fun r h0 => hr r (by
          simp only [HTy.refs, List.mem_flatten, List.mem_map]
          exact ⟨_, ⟨x, hx, rfl⟩, h0⟩)
      rw [pureRun_andThen, hl, h1, List.length_map]
      rfl
  | .struct fs, v, ts, h, b, hg, hr => by
    rw [marshal, acts]
    exact actsFields_spec fs v h b hg hr
  | .bool, v, ts, h, b, hg, hr => by
    rw [marshal, acts, HTy.load]
    rfl
  | .num k, v, ts, h, b, hg, hr => by
    rw [marshal, acts, HTy.load]
    rfl
  | .unsupported _ _, v, ts, h, b, hg, hr => by
    rw [marshal, acts]
    rfl
theorem actsFields_spec : ∀ (fs : HFields) (v : fs.Cell) (h : Heap) (b : Bytes), EGoodFields fs → (∀ r ∈ fs.refs v, r.Ok h) →
    marshalFields fs.erase (fs.load h v) b = pureRun h (actsFields fs v) b
  | .nil, v, h, b, hg, hr => by
    rw [marshalFields, actsFields]
    rfl
  | .cons tag t fs, v, h, b, hg, hr => by
    rw [marshalFields, actsFields]
    cases fieldTags tag with
    | none => rfl
    | some ts =>
      dsimp only
      rw [pureRun_andThen, HFields.load]
      have h1 := acts_spec t v.1 ts h b hg.1 fun r h0 => hr r (by simp [HFields.refs, h0])
      have h2 := fun b => actsFields_spec fs v.2 h b hg.2 fun r h0 => hr r (by simp [HFields.refs, h0])
      dsimp only
      rw [h1]
      cases pureRun h (acts t v.1 ts) b with
      | ok b => exact h2 b
      | err e => rfl
      | panic => rfl
end

mutual
theorem acts_refs : ∀ (t : HTy) (v : t.Cell) (ts : Tags), EGood t → ∀ r ∈ actRefs (acts t v ts).1, r ∈ t.refs v
  | .custom c, v, ts, hg, r, hr => by rw [acts] at hr; exact hg.refs v r hr
  | .ptr t, v, ts, hg, r, hr => by
    cases v with
    | none =>
      simp only [acts] at hr
      cases hopt : ts.optional with
      | true => rw [hopt] at hr; simp [Trace.put, actRefs] at hr
      | false => rw [hopt] at hr; simp [actRefs] at hr
    | some x =>
      have ih := acts_refs t x ts hg.1
      have hgoal : r ∈ actRefs (acts t x ts).1 → r ∈ HTy.refs (.ptr t) (some x) := fun h0 => by
        simpa [HTy.refs] using ih r h0
      have hf : r ∉ actRefs (if ts.optional = true then Trace.put [.lit [0x01]] else Trace.put []).1 := by
        cases ts.optional <;> simp [Trace.put, actRefs]
      simp only [acts] at hr
      cases hx : acts t x ts with
      | mk as o =>
        rw [hx] at hr hgoal
        cases o with
        | ok u => cases u; exact hgoal ((andThen_refs _ _ r hr).resolve_left hf)
        | err e =>
          have h0 := (andThen_refs _ _ r hr).resolve_left hf
          rw [actRefs_append] at h0
          exact hgoal (by simpa [actRefs] using h0)
        | panic => exact hgoal ((andThen_refs _ _ r hr).resolve_left hf)
  | .byteArr n, v, ts, hg, r, hr => by rw [acts] at hr; simp [Trace.put, actRefs] at hr
  | .arr n t, v, ts, hg, r, hr => by
    rw [acts] at hr
    obtain ⟨x, hx, h0⟩ := all_refs _ r hr
    obtain ⟨y, hy, rfl⟩ := List.mem_map.1 hx
    simp only [HTy.refs, List.mem_flatten, List.mem_map]
    exact ⟨_, ⟨y, hy, rfl⟩, acts_refs t y {} hg r h0⟩
  | .str, v, ts, hg, r, hr => by
    rw [acts] at hr
    cases hk : ts.lenTag with
    | none => rw [hk] at hr; simp [actRefs] at hr
    | some k => rw [hk] at hr; simp [Trace.put, actRefs] at hr
  | .byteSlice, v, ts, hg, r, hr => by
    rw [acts] at hr
    cases hk : ts.lenTag with
    | none => rw [hk] at hr; simp [actRefs] at hr
    | some k => rw [hk] at hr; simpa [Trace.put, actRefs, HTy.refs] using hr
  | .slice t, v, ts, hg, r, hr => by
    rw [acts] at hr
    cases hk : ts.lenTag with
    | none => rw [hk] at hr; simp [actRefs] at hr
    | some k =>
      rw [hk] at hr
      have h1 := (andThen_refs _ _ r hr).resolve_left (by simp [Trace.put, actRefs])
      obtain ⟨x, hx, h0⟩ := all_refs _ r h1
      obtain ⟨y, hy, rfl⟩ := List.mem_map.1 hx
      simp only [HTy.refs, List.mem_flatten, List.mem_map]
      exact ⟨_, ⟨y, hy, rfl⟩, acts_refs t y {} hg r h0⟩
  | .struct fs, v, ts, hg, r, hr => by rw [acts] at hr; exact actsFields_refs fs v hg r hr
  | .bool, v, ts, hg, r, hr => by rw [acts] at hr; simp [Trace.put, actRefs] at hr
  | .num k, v, ts, hg, r, hr => by rw [acts] at hr; simp [Trace.put, actRefs] at hr
  | .unsupported _ _, v, ts, hg, r, hr => by rw [acts] at hr; simp [actRefs] at hr
theorem actsFields_refs : ∀ (fs : HFields) (v : fs.Cell), EGoodFields fs → ∀ r ∈ actRefs (actsFields fs v).1, r ∈ fs.refs v
  | .nil, v, hg, r, hr => by rw [actsFields] at hr; simp [actRefs] at hr
  | .cons tag t fs, v, hg, r, hr => by
    rw [actsFields] at hr
    cases hk : fieldTags tag with
    | none => rw [hk] at hr; simp [actRefs] at hr
    | some ts =>
      rw [hk] at hr
      rcases andThen_refs _ _ r hr with h0 | h0
      · exact List.mem_append.2 (.inl (acts_refs t v.1 ts hg.1 r h0))
      · exact List.mem_append.2 (.inr (actsFields_refs fs v.2 hg.2 r h0))
end


theorem MarshalH_frame {grow : Nat → Nat → Nat} (hg : ∀ c n, n ≤ grow c n) (t : HTy) (v : t.Cell) (h : Heap) (b : Buf)
    (hb : b.Valid h) : Frame h b (MarshalH grow t v h b).1 ∧ ∀ b', (MarshalH grow t v h b).2 = .ok b' →
      Ext h b b' ∧ b'.Valid (MarshalH grow t v h b).1 := by
  unfold MarshalH
  cases hx : acts t v {} with
  | mk as o =>
    obtain ⟨h1, h2, h3⟩ := runActs_frame hg as h b hb
    cases o with
    | ok u =>
      cases u
      refine ⟨h1, ?_⟩
      rintro b' he
      simp only [Out.ok.injEq] at he
      subst he
      exact ⟨h2, h3⟩
    | err e => exact ⟨h1, fun b' he => by simp at he⟩
    | panic => exact ⟨h1, fun b' he => by simp at he⟩

theorem Clear.ok {h : Heap} {b : Buf} {r : Ref} (hc : Clear h b r) : r.Ok h := hc.elim .inr fun h0 => .inl h0.1

theorem MarshalH_spec {grow : Nat → Nat → Nat} (hg : ∀ c n, n ≤ grow c n) (t : HTy) (ht : EGood t) (v : t.Cell) (h : Heap)
    (b : Buf) (hb : b.Valid h) (hr : ∀ r ∈ t.refs v, Clear h b r) :
    shown (MarshalH grow t v h b) = Marshal (b.ref.bytes h) t.erase (t.load h v) := by
  unfold MarshalH Marshal
  rw [acts_spec t v {} h (b.ref.bytes h) ht fun r h0 => (hr r h0).ok]
  have hrefs := acts_refs t v {} ht
  cases hx : acts t v {} with
  | mk as o =>
    rw [hx] at hrefs
    cases o with
    | ok u =>
      cases u
      have h3 := (runActs_spec hg as h b hb fun r h0 => hr r (hrefs r h0)).2.2.2
      show Out.ok _ = Out.ok _
      rw [h3]
    | err e => rfl
    | panic => rfl

/-- **C121.** Whatever value is marshalled into whatever buffer, with whatever result: no byte of existing memory is written
but those behind the visible part of the buffer and within its capacity; and the result, if there is one, is the buffer made
longer, or a slice of an array that is new (or the nil slice).  `grow` is how the runtime chooses capacities. -/
theorem C121_writes_only_spare_capacity (grow : Nat → Nat → Nat) (hg : ∀ c n, n ≤ grow c n) (t : HTy) (v : t.Cell) (h : Heap)
    (b : Buf) (hb : b.Valid h) :
    (∀ i j, i < h.length → ¬ (i = b.arr ∧ b.off + b.len ≤ j ∧ j < b.off + b.cap) →
      ((MarshalH grow t v h b).1[i]?.getD [])[j]? = (h[i]?.getD [])[j]?) ∧
    (∀ b', (MarshalH grow t v h b).2 = .ok b' → b'.Valid (MarshalH grow t v h b).1 ∧
      ((b'.arr = b.arr ∧ b'.off = b.off ∧ b'.cap = b.cap ∧ b.len ≤ b'.len) ∨ h.length ≤ b'.arr ∨ b' = Buf.nil)) := by
  obtain ⟨h1, h2⟩ := MarshalH_frame hg t v h b hb
  exact ⟨fun i j hi hn => (h1.2 i hi).2 j hn, fun b' he => ⟨(h2 b' he).2, (h2 b' he).1⟩⟩

/-- **C121.** If no slice of the value reaches into the spare capacity of the buffer, then the outcome is that of the model
without memory, and the value is unchanged. -/
theorem C121_result_is_the_encoding (grow : Nat → Nat → Nat) (hg : ∀ c n, n ≤ grow c n) (t : HTy) (ht : EGood t) (ht' : HGood t)
    (v : t.Cell) (h : Heap) (b : Buf) (hb : b.Valid h)
    (hr : ∀ r ∈ t.refs v, r.len = 0 ∨ (r.Valid h ∧ ∀ j, r.off ≤ j → j < r.off + r.len →
      ¬ (r.arr = b.arr ∧ b.off + b.len ≤ j ∧ j < b.off + b.cap))) :
    shown (MarshalH grow t v h b) = Marshal (b.ref.bytes h) t.erase (t.load h v) ∧
    t.load (MarshalH grow t v h b).1 v = t.load h v := by
  have hr' : ∀ r ∈ t.refs v, Clear h b r := hr
  exact ⟨MarshalH_spec hg t ht v h b hb hr', load_congr t _ _ v ht' fun r h0 =>
    (hr' r h0).bytes_eq (MarshalH_frame hg t v h b hb).1⟩

theorem Frame.prefix {h h' : Heap} {b : Buf} (hf : Frame h b h') (hc : b.cap ≤ b.len) : h <+: h' := by
  obtain ⟨hl, hf⟩ := hf
  refine ⟨h'.drop h.length, ?_⟩
  apply List.ext_getElem?
  intro i
  by_cases hi : i < h.length
  · rw [List.getElem?_append_left hi]
    have h1 := (hf i hi).2
    have h2 : h[i]?.getD [] = h'[i]?.getD [] := by
      apply List.ext_getElem?
      intro j
      refine (h1 j ?_).symm
      rintro ⟨_, h3, h4⟩
      omega
    rw [List.getElem?_eq_getElem hi, List.getElem?_eq_getElem (by omega)] at h2 ⊢
    simpa using h2
  · rw [List.getElem?_append_right (by omega), List.getElem?_drop]
    congr 1
    omega

/-- **C121.** With nil or any other buffer without spare capacity no existing byte is written, whatever the value refers to,
and the outcome is that of the model without memory. -/
theorem C121_no_spare_capacity (grow : Nat → Nat → Nat) (hg : ∀ c n, n ≤ grow c n) (t : HTy) (ht : EGood t) (v : t.Cell)
    (h : Heap) (b : Buf) (hb : b.Valid h) (hcap : b.cap = b.len) (hr : ∀ r ∈ t.refs v, r.Valid h ∨ r.len = 0) :
    h <+: (MarshalH grow t v h b).1 ∧
    shown (MarshalH grow t v h b) = Marshal (b.ref.bytes h) t.erase (t.load h v) :=
  ⟨(MarshalH_frame hg t v h b hb).1.prefix (by omega), MarshalH_spec hg t ht v h b hb fun r h0 => by
    rcases hr r h0 with h1 | h1
    · refine .inr ⟨h1, ?_⟩
      rintro j _ _ ⟨_, h3, h4⟩
      omega
    · exact .inl h1⟩

/-- **C121.** A value that was decoded from a buffer can be marshalled into the same buffer, from its start: the result is the
encoding of the value, and the value stays what it was, although the bytes it came from are overwritten. -/
theorem C121_decode_then_encode_in_place (grow : Nat → Nat → Nat) (hg : ∀ c n, n ≤ grow c n) (t : HTy) (ht : EGood t)
    (ht' : HGood t) (prev v : t.Cell) (h h' : Heap) (buf rest : Ref) (hbuf : buf.Valid h)
    (hprev : ∀ r ∈ t.refs prev, r.Valid h ∨ r.len = 0) (hok : UnmarshalH t prev h buf = (h', .ok v rest)) :
    shown (MarshalH grow t v h' ⟨buf.arr, buf.off, 0, buf.len⟩) = Marshal [] t.erase (t.load h' v) ∧
    t.load (MarshalH grow t v h' ⟨buf.arr, buf.off, 0, buf.len⟩).1 v = t.load h' v := by
  obtain ⟨h1, _⟩ := C120_writes_nothing_old t ht' prev h buf hbuf hprev
  obtain ⟨h2, _⟩ := C120_slices_are_new t ht' prev v h h' buf rest hbuf hprev hok
  rw [hok] at h1
  have hv : buf.Valid h' := hbuf.mono h1
  have h3 := C121_result_is_the_encoding grow hg t ht ht' v h' ⟨buf.arr, buf.off, 0, buf.len⟩
    ⟨Nat.zero_le _, .inr hv⟩ (fun r hr => .inr ⟨(h2 r hr).2, fun j _ _ hj => by
      have := (h2 r hr).1
      have := hbuf.1
      have := hj.1
      dsimp only at this
      omega⟩)
  have h4 : (Buf.ref ⟨buf.arr, buf.off, 0, buf.len⟩).bytes h' = [] := by simp [Buf.ref, Ref.bytes]
  rw [h4] at h3
  exact h3

/-! ### Results in one buffer -/

/-- How many bytes are appended. -/
def actsLen : List Act → Nat
  | [] => 0
  | .append (.lit x) :: as => x.length + actsLen as
  | .append (.slice r) :: as => r.len + actsLen as
  | .reset :: as => actsLen as

theorem pureActs_length {h : Heap} : ∀ (as : List Act) (b : Bytes), (∀ a ∈ as, a ≠ .reset) → (∀ r ∈ actRefs as, r.Ok h) →
    (pureActs h as b).length = b.length + actsLen as
  | [], _, _, _ => rfl
  | .reset :: _, _, hn, _ => absurd rfl (hn .reset (by simp))
  | .append (.lit x) :: as, b, hn, hr => by
    rw [pureActs, actsLen, pureActs_length as _ (fun a ha => hn a (by simp [ha])) hr, Src.bytes, List.length_append]
    omega
  | .append (.slice r) :: as, b, hn, hr => by
    rw [pureActs, actsLen, pureActs_length as _ (fun a ha => hn a (by simp [ha])) (fun q hq => hr q (by simp [actRefs, hq])),
      Src.bytes, List.length_append, (hr r (by simp [actRefs])).length]
    omega

theorem Ref.Ok.step {h h' : Heap} {b : Buf} {r : Ref} (hr : r.Ok h) (hf : Frame h b h') : r.Ok h' := by
  rcases hr with h0 | h0
  · exact .inl ⟨Nat.lt_of_lt_of_le h0.1 hf.1, by rw [(hf.2 r.arr h0.1).1]; exact h0.2⟩
  · exact .inr h0

theorem runActs_in_place {grow : Nat → Nat → Nat} (hg : ∀ c n, n ≤ grow c n) : ∀ (as : List Act) (h : Heap) (b : Buf),
    b.Valid h → (∀ a ∈ as, a ≠ .reset) → (∀ r ∈ actRefs as, r.Ok h) → b.len + actsLen as ≤ b.cap →
    (runActs grow as h b).1.length = h.length ∧ (runActs grow as h b).2 = { b with len := b.len + actsLen as }
  | [], h, b, _, _, _, _ => ⟨rfl, rfl⟩
  | .reset :: as, h, b, hv, hn, _, _ => absurd rfl (hn .reset (by simp))
  | .append s :: as, h, b, hv, hn, hr, hc => by
    have hs : (s.bytes h).length + actsLen as = actsLen (.append s :: as) ∧ ∀ r ∈ actRefs as, r.Ok h := by
      cases s with
      | lit x => exact ⟨rfl, hr⟩
      | slice r =>
        refine ⟨?_, fun q hq => hr q (by simp [actRefs, hq])⟩
        rw [actsLen, Src.bytes, (hr r (by simp [actRefs])).length]
    obtain ⟨f1, _, v1, _, _⟩ := appendH_spec hg hv (s.bytes h)
    have hx : appendH grow h b (s.bytes h) = (h.set b.arr (splice (h[b.arr]?.getD []) (b.off + b.len) (s.bytes h)),
        { b with len := b.len + (s.bytes h).length }) := by
      unfold appendH
      rw [if_pos (by omega)]
    rw [hx] at f1 v1
    rw [runActs, hx]
    dsimp only
    have ih := runActs_in_place hg as _ _ v1 (fun a ha => hn a (by simp [ha])) (fun r h0 => (hs.2 r h0).step f1) (by
      dsimp only; omega)
    refine ⟨by rw [ih.1, List.length_set], ?_⟩
    rw [ih.2]
    congr 1
    dsimp only
    omega

mutual
/-- Marshalling a value of this type, as a field with these tags, cannot fail (but may panic). -/
def Total : HTy → Tags → Prop
  | .custom c, _ => ∀ v, (∀ a ∈ (c.acts v).1, a ≠ .reset) ∧ ∀ e, (c.acts v).2 ≠ .err e
  | .ptr t, ts => ts.optional = true ∧ Total t ts
  | .arr _ t, _ => Total t {}
  | .slice t, ts => ts.lenTag ≠ none ∧ Total t {}
  | .str, ts => ts.lenTag ≠ none
  | .byteSlice, ts => ts.lenTag ≠ none
  | .struct fs, _ => TotalFields fs
  | .num _, _ | .bool, _ | .byteArr _, _ => True
  | .unsupported _ _, _ => False
def TotalFields : HFields → Prop
  | .nil => True
  | .cons tag t fs => (∀ ts, fieldTags tag = some ts → Total t ts) ∧ TotalFields fs
end

def Trace.Total (x : Trace) : Prop := (∀ a ∈ x.1, a ≠ .reset) ∧ ∀ e, x.2 ≠ .err e

theorem Trace.Total.andThen {x y : Trace} (hx : x.Total) (hy : y.Total) : (x.andThen y).Total := by
  obtain ⟨as, o⟩ := x
  cases o with
  | ok u =>
    cases u
    refine ⟨fun a ha => ?_, hy.2⟩
    rcases List.mem_append.1 ha with h0 | h0
    · exact hx.1 a h0
    · exact hy.1 a h0
  | err e => exact absurd rfl (hx.2 e)
  | panic => exact ⟨hx.1, fun e => by simp [Trace.andThen]⟩

theorem Trace.Total.all : ∀ {l : List Trace}, (∀ x ∈ l, x.Total) → (Trace.all l).Total
  | [], _ => ⟨by simp [Trace.all], by simp [Trace.all]⟩
  | x :: l, h => (h x (by simp)).andThen (Trace.Total.all fun y hy => h y (by simp [hy]))

theorem Trace.Total.put (ss : List Src) : (Trace.put ss).Total := ⟨by simp [Trace.put], by simp [Trace.put]⟩
theorem Trace.Total.done : Trace.Total ([], .ok ()) := ⟨by simp, by simp⟩

mutual
theorem acts_total : ∀ (t : HTy) (ts : Tags) (v : t.Cell), Total t ts → (acts t v ts).Total
  | .custom c, ts, v, h => by rw [acts]; exact h v
  | .ptr t, ts, v, h => by
    cases v with
    | none => simp only [acts, h.1, if_true]; exact .put _
    | some x =>
      have ih := acts_total t ts x h.2
      simp only [acts, h.1, if_true]
      cases hx : acts t x ts with
      | mk as o =>
        rw [hx] at ih
        cases o with
        | ok u => cases u; exact (Trace.Total.put _).andThen ih
        | err e => exact absurd rfl (ih.2 e)
        | panic => exact (Trace.Total.put _).andThen ih
  | .byteArr n, ts, v, h => by rw [acts]; exact .put _
  | .arr n t, ts, v, h => by
    rw [acts]
    refine .all fun x hx => ?_
    obtain ⟨y, _, rfl⟩ := List.mem_map.1 hx
    exact acts_total t {} y h
  | .str, ts, v, h => by
    rw [acts]
    cases hk : ts.lenTag with
    | none => exact absurd hk h
    | some k => exact .put _
  | .byteSlice, ts, v, h => by
    rw [acts]
    cases hk : ts.lenTag with
    | none => exact absurd hk h
    | some k => exact .put _
  | .slice t, ts, v, h => by
    rw [acts]
    cases hk : ts.lenTag with
    | none => exact absurd hk h.1
    | some k =>
      refine (Trace.Total.put _).andThen (.all fun x hx => ?_)
      obtain ⟨y, _, rfl⟩ := List.mem_map.1 hx
      exact acts_total t {} y h.2
  | .struct fs, ts, v, h => by rw [acts]; exact actsFields_total fs v h
  | .bool, ts, v, h => by rw [acts]; exact .put _
  | .num k, ts, v, h => by rw [acts]; exact .put _
  | .unsupported _ _, ts, v, h => h.elim
theorem actsFields_total : ∀ (fs : HFields) (v : fs.Cell), TotalFields fs → (actsFields fs v).Total
  | .nil, v, h => by rw [actsFields]; exact .done
  | .cons tag t fs, v, h => by
    rw [actsFields]
    cases hk : fieldTags tag with
    | none => exact ⟨by simp, by simp⟩
    | some ts => exact (acts_total t ts v.1 (h.1 ts hk)).andThen (actsFields_total fs v.2 h.2)
end

/-- **C121.** Where the capacity suffices nothing is allocated, and the result is the buffer made longer (for types whose
marshalling cannot fail).  This holds for overlapping memory too. -/
theorem C121_in_place (grow : Nat → Nat → Nat) (hg : ∀ c n, n ≤ grow c n) (t : HTy) (ht : EGood t) (htot : Total t {})
    (v : t.Cell) (h : Heap) (b : Buf) (hb : b.Valid h) (hr : ∀ r ∈ t.refs v, r.Valid h ∨ r.len = 0) (enc : Bytes)
    (henc : Marshal [] t.erase (t.load h v) = .ok enc) (hcap : b.len + enc.length ≤ b.cap) :
    (MarshalH grow t v h b).1.length = h.length ∧
      (MarshalH grow t v h b).2 = .ok ⟨b.arr, b.off, b.len + enc.length, b.cap⟩ := by
  unfold Marshal at henc
  rw [acts_spec t v {} h [] ht hr] at henc
  have hrefs := acts_refs t v {} ht
  have hT := acts_total t {} v htot
  unfold MarshalH
  cases hx : acts t v {} with
  | mk as o =>
    rw [hx] at hrefs hT henc
    cases o with
    | ok u =>
      cases u
      simp only [pureRun, Out.ok.injEq] at henc
      have hok : ∀ r ∈ actRefs as, r.Ok h := fun r h0 => hr r (hrefs r h0)
      have hlen := pureActs_length (h := h) as [] hT.1 hok
      rw [henc, List.length_nil, Nat.zero_add] at hlen
      have := runActs_in_place hg as h b hb hT.1 hok (by omega)
      dsimp only
      rw [hlen, this.2]
      exact ⟨this.1, rfl⟩
    | err e => simp [pureRun] at henc
    | panic => simp [pureRun] at henc

theorem pureActs_prefix {h : Heap} : ∀ (as : List Act) (b : Bytes), (∀ a ∈ as, a ≠ .reset) →
    pureActs h as b = b ++ pureActs h as []
  | [], b, _ => by simp [pureActs]
  | .reset :: _, _, hn => absurd rfl (hn .reset (by simp))
  | .append s :: as, b, hn => by
    have hn' : ∀ a ∈ as, a ≠ .reset := fun a ha => hn a (by simp [ha])
    rw [pureActs, pureActs, pureActs_prefix as (b ++ s.bytes h) hn', pureActs_prefix as ([] ++ s.bytes h) hn']
    simp

theorem Marshal_total {t : HTy} (ht : EGood t) (htot : Total t {}) {v : t.Cell} {h : Heap} (hr : ∀ r ∈ t.refs v, r.Ok h)
    {enc : Bytes} (henc : Marshal [] t.erase (t.load h v) = .ok enc) (b : Bytes) :
    Marshal b t.erase (t.load h v) = .ok (b ++ enc) := by
  unfold Marshal at henc ⊢
  rw [acts_spec t v {} h _ ht hr] at henc ⊢
  have hT := acts_total t {} v htot
  cases hx : acts t v {} with
  | mk as o =>
    rw [hx] at hT henc
    cases o with
    | ok u =>
      cases u
      simp only [pureRun, Out.ok.injEq] at henc ⊢
      rw [pureActs_prefix as b hT.1, henc]
    | err e => simp [pureRun] at henc
    | panic => simp [pureRun] at henc

/-- **C121.** What goes wrong if the same buffer is used for two values: both results are made in its spare capacity, and the
first, which was right when it was returned, then shows the bytes of the second. -/
theorem C121_second_result_overwrites_the_first (grow : Nat → Nat → Nat) (hg : ∀ c n, n ≤ grow c n) (t u : HTy) (ht : EGood t)
    (hu : EGood u) (hu' : HGood u) (htt : Total t {}) (hut : Total u {}) (v : t.Cell) (w : u.Cell) (h : Heap) (b : Buf)
    (hb : b.Valid h) (hv : ∀ r ∈ t.refs v, Clear h b r) (hw : ∀ r ∈ u.refs w, Clear h b r) (e1 e2 : Bytes)
    (he1 : Marshal [] t.erase (t.load h v) = .ok e1) (he2 : Marshal [] u.erase (u.load h w) = .ok e2)
    (hc1 : b.len + e1.length ≤ b.cap) (hc2 : b.len + e2.length ≤ b.cap) (hle : e1.length ≤ e2.length) :
    ∃ b1 b2, (MarshalH grow t v h b).2 = .ok b1 ∧ b1.ref.bytes (MarshalH grow t v h b).1 = b.ref.bytes h ++ e1 ∧
      (MarshalH grow u w (MarshalH grow t v h b).1 b).2 = .ok b2 ∧
      b2.ref.bytes (MarshalH grow u w (MarshalH grow t v h b).1 b).1 = b.ref.bytes h ++ e2 ∧
      b1.ref.bytes (MarshalH grow u w (MarshalH grow t v h b).1 b).1 = b.ref.bytes h ++ e2.take e1.length := by
  have i1 := C121_in_place grow hg t ht htt v h b hb (fun r h0 => (hv r h0).ok) e1 he1 hc1
  have s1 := MarshalH_spec hg t ht v h b hb hv
  unfold shown at s1
  rw [i1.2, Marshal_total ht htt (fun r h0 => (hv r h0).ok) he1] at s1
  have f1 := (MarshalH_frame hg t v h b hb).1
  generalize (MarshalH grow t v h b).1 = h1 at *
  have hbl : (b.ref.bytes h).length = b.len := by
    rcases hb.2 with h0 | h0
    · have : b.len = 0 := by have := hb.1; omega
      simp [Buf.ref, Ref.bytes, this]
    · apply Ref.bytes_length
      exact ⟨h0.1, by have := hb.1; simp only [Buf.ref]; omega⟩
  have hb1 : b.Valid h1 := by
    refine ⟨hb.1, hb.2.imp id fun h0 => ⟨Nat.lt_of_lt_of_le h0.1 f1.1, ?_⟩⟩
    rw [(f1.2 b.arr h0.1).1]
    exact h0.2
  have hbb : b.ref.bytes h1 = b.ref.bytes h := by
    rcases hb.2 with h0 | h0
    · have : b.len = 0 := by have := hb.1; omega
      simp [Buf.ref, Ref.bytes, this]
    · apply bytes_ext
      intro j hj1 hj2
      refine (f1.2 _ h0.1).2 j ?_
      rintro ⟨_, h3, h4⟩
      simp only [Buf.ref] at hj2
      omega
  have hw1 : ∀ r ∈ u.refs w, Clear h1 b r := fun r h0 => (hw r h0).step f1 (.refl _ _)
  have hld : u.load h1 w = u.load h w := load_congr u _ _ w hu' fun r h0 => (hw r h0).bytes_eq f1
  have he2' : Marshal [] u.erase (u.load h1 w) = .ok e2 := by rw [hld]; exact he2
  have i2 := C121_in_place grow hg u hu hut w h1 b hb1 (fun r h0 => (hw1 r h0).ok) e2 he2' hc2
  have s2 := MarshalH_spec hg u hu w h1 b hb1 hw1
  unfold shown at s2
  rw [i2.2, Marshal_total hu hut (fun r h0 => (hw1 r h0).ok) he2', hbb] at s2
  generalize (MarshalH grow u w h1 b).1 = h2 at *
  simp only [Out.ok.injEq] at s1 s2
  refine ⟨_, _, i1.2, s1, i2.2, s2, ?_⟩
  have key : Ref.bytes h2 ⟨b.arr, b.off, b.len + e1.length⟩ =
      (Ref.bytes h2 ⟨b.arr, b.off, b.len + e2.length⟩).take (b.len + e1.length) := by
    unfold Ref.bytes
    rw [List.take_take]
    congr 1
    dsimp only
    omega
  simp only [Buf.ref] at s2 hbl ⊢
  rw [key, s2, List.take_append, hbl, List.take_of_length_le (by omega), Nat.add_sub_cancel_left]

end Nimiq.Beserial
