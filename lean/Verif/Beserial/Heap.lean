import Verif.Beserial.HeapModel
import Verif.Beserial.Defined
/-!
# C120: what `Unmarshal` returns shares no memory with its input
-/
namespace Nimiq.Beserial
open Spec

/-- The reference is to memory of `h` (or shows nothing). -/
def Ref.Stable (h : Heap) (r : Ref) : Prop := r.len = 0 ∨ r.arr < h.length

/-- `r` is the rest of `d` after some bytes. -/
def Ref.Tail (d r : Ref) : Prop := r.arr = d.arr ∧ d.off ≤ r.off ∧ r.off + r.len = d.off + d.len

/-- The references are to arrays of `h` allocated since there were `lo` of them, each to another, and lie within them. -/
def Own (lo : Nat) (h : Heap) (rs : List Ref) : Prop := (∀ r ∈ rs, lo ≤ r.arr ∧ r.Valid h) ∧ (rs.map (·.arr)).Nodup

theorem getD_prefix {h h' : Heap} (hp : h <+: h') {i : Nat} (hi : i < h.length) : h'[i]?.getD [] = h[i]?.getD [] := by
  obtain ⟨n, rfl⟩ := hp
  rw [List.getElem?_append_left hi]

theorem Ref.bytes_prefix {h h' : Heap} (hp : h <+: h') {r : Ref} (hr : r.Stable h) : r.bytes h' = r.bytes h := by
  unfold Ref.bytes
  rcases hr with h0 | h0
  · simp [h0]
  · rw [getD_prefix hp h0]

theorem Ref.Valid.stable {h : Heap} {r : Ref} (hv : r.Valid h) : r.Stable h := .inr hv.1

theorem Ref.Valid.mono {h h' : Heap} {r : Ref} (hv : r.Valid h) (hp : h <+: h') : r.Valid h' := by
  refine ⟨Nat.lt_of_lt_of_le hv.1 hp.length_le, ?_⟩
  rw [getD_prefix hp hv.1]
  exact hv.2

theorem Ref.Stable.mono {h h' : Heap} {r : Ref} (hv : r.Stable h) (hp : h <+: h') : r.Stable h' :=
  hv.imp id fun h0 => Nat.lt_of_lt_of_le h0 hp.length_le

theorem Ref.bytes_length {h : Heap} {r : Ref} (hv : r.Valid h) : (r.bytes h).length = r.len := by
  have := hv.2
  unfold Ref.bytes
  rw [List.length_take, List.length_drop]
  omega

theorem Ref.Tail.refl (d : Ref) : d.Tail d := ⟨rfl, Nat.le_refl _, rfl⟩
theorem Ref.Tail.trans {a b c : Ref} (h1 : a.Tail b) (h2 : b.Tail c) : a.Tail c :=
  ⟨h2.1.trans h1.1, Nat.le_trans h1.2.1 h2.2.1, h2.2.2.trans h1.2.2⟩
theorem Ref.Tail.valid {h : Heap} {d r : Ref} (ht : d.Tail r) (hv : d.Valid h) : r.Valid h := by
  obtain ⟨h1, h2, h3⟩ := ht
  obtain ⟨h4, h5⟩ := hv
  refine ⟨by rw [h1]; exact h4, ?_⟩
  rw [h1, h3]
  exact h5

theorem Own.mono {lo lo' : Nat} {h h' : Heap} {rs : List Ref} (ho : Own lo h rs) (h1 : lo' ≤ lo) (h2 : h <+: h') :
    Own lo' h' rs :=
  ⟨fun r hr => ⟨Nat.le_trans h1 (ho.1 r hr).1, (ho.1 r hr).2.mono h2⟩, ho.2⟩
theorem Own.nil (lo : Nat) (h : Heap) : Own lo h [] := ⟨fun r hr => by simp at hr, by simp⟩
theorem Own.append {a : Nat} {b c : Heap} {r1 r2 : List Ref} (h1 : Own a b r1) (h2 : Own b.length c r2) (hab : a ≤ b.length)
    (hbc : b <+: c) : Own a c (r1 ++ r2) := by
  refine ⟨?_, ?_⟩
  · intro r hr
    rcases List.mem_append.1 hr with hr | hr
    · exact ⟨(h1.1 r hr).1, (h1.1 r hr).2.mono hbc⟩
    · exact ⟨Nat.le_trans hab (h2.1 r hr).1, (h2.1 r hr).2⟩
  · rw [List.map_append, List.nodup_append]
    refine ⟨h1.2, h2.2, ?_⟩
    intro x hx y hy
    obtain ⟨r, hr, rfl⟩ := List.mem_map.1 hx
    obtain ⟨s, hs, rfl⟩ := List.mem_map.1 hy
    have := (h1.1 r hr).2.1
    have := (h2.1 s hs).1
    omega
theorem Own.stable {lo : Nat} {h : Heap} {rs : List Ref} (ho : Own lo h rs) : ∀ r ∈ rs, r.Stable h :=
  fun r hr => .inr (ho.1 r hr).2.1

/-- `x`, the end of a decoding with memory that began with heap `h` and data `d`, corresponds to `y`, the end of the same
without memory: nothing that existed was written, the values are equal, and all slices in the value are new. -/
def Rel {α β : Type} (load : Heap → α → β) (refs : α → List Ref) (h : Heap) (d : Ref) (x : Heap × HRes α) (y : Res β) :
    Prop :=
  h <+: x.1 ∧ match x.2 with
    | .ok v r => y = .ok (load x.1 v) (r.bytes h) ∧ Own h.length x.1 (refs v) ∧ d.Tail r
    | .err e r => y = .err e (r.bytes h) ∧ d.Tail r
    | .panic => y = .panic

/-- The end of a custom decoder with memory corresponds to that of the one without. -/
def RelOut {α β : Type} (load : Heap → α → β) (refs : α → List Ref) (h : Heap) (x : Heap × Out (Nat × α))
    (y : Out (Nat × β)) : Prop :=
  h <+: x.1 ∧ match x.2 with
    | .ok (n, v) => y = .ok (n, load x.1 v) ∧ Own h.length x.1 (refs v)
    | .err e => y = .err e
    | .panic => y = .panic

/-- A custom type does what its model without memory does, writes to no old memory and keeps only new slices. -/
structure LawfulH (c : HCodec) : Prop where
  congr : ∀ h1 h2 v, (∀ r ∈ c.refs v, r.bytes h1 = r.bytes h2) → c.load h1 v = c.load h2 v
  zero : ∀ h, c.load h c.zero = c.base.zero
  zero_refs : ∀ r ∈ c.refs c.zero, r.len = 0
  dec : ∀ p h d, d.Valid h → (∀ r ∈ c.refs p, r.Stable h) →
    RelOut c.load c.refs h (c.dec p h d) (c.base.dec (c.load h p) (d.bytes h))

mutual
/-- All custom types of a type are lawful and not behind pointers. -/
def HGood : HTy → Prop
  | .custom c => LawfulH c
  | .ptr t => HGood t ∧ isCustom t.erase = false
  | .arr _ t => HGood t
  | .slice t => HGood t
  | .struct fs => HGoodFields fs
  | .num _ | .bool | .str | .byteArr _ | .byteSlice | .unsupported _ _ => True
def HGoodFields : HFields → Prop
  | .nil => True
  | .cons _ t fs => HGood t ∧ HGoodFields fs
end

mutual
/-- What a variable shows depends only on what its slices show. -/
theorem load_congr : ∀ (t : HTy) (h1 h2 : Heap) (v : t.Cell), HGood t → (∀ r ∈ t.refs v, r.bytes h1 = r.bytes h2) →
    t.load h1 v = t.load h2 v
  | .custom c, h1, h2, v, hg, hr => hg.congr h1 h2 v hr
  | .byteSlice, h1, h2, v, _, hr => hr v (by simp [HTy.refs])
  | .arr n t, h1, h2, v, hg, hr => by
    apply Subtype.ext
    simp only [HTy.load]
    apply List.map_congr_left
    intro x hx
    exact load_congr t h1 h2 x hg fun r h => hr r (by
      simp only [HTy.refs, List.mem_flatten, List.mem_map]
      exact ⟨_, ⟨x, hx, rfl⟩, h⟩)
  | .slice t, h1, h2, v, hg, hr => by
    simp only [HTy.load]
    apply List.map_congr_left
    intro x hx
    exact load_congr t h1 h2 x hg fun r h => hr r (by
      simp only [HTy.refs, List.mem_flatten, List.mem_map]
      exact ⟨_, ⟨x, hx, rfl⟩, h⟩)
  | .ptr t, h1, h2, v, hg, hr => by
    cases v with
    | none => rfl
    | some x =>
      simp only [HTy.load, Option.map_some]
      exact congrArg some (load_congr t h1 h2 x hg.1 fun r h => hr r (by simpa [HTy.refs] using h))
  | .struct fs, h1, h2, v, hg, hr => loadFields_congr fs h1 h2 v hg hr
  | .num _, _, _, _, _, _ | .bool, _, _, _, _, _ | .str, _, _, _, _, _ | .byteArr _, _, _, _, _, _
  | .unsupported _ _, _, _, _, _, _ => by simp only [HTy.load]
theorem loadFields_congr : ∀ (fs : HFields) (h1 h2 : Heap) (v : fs.Cell), HGoodFields fs →
    (∀ r ∈ fs.refs v, r.bytes h1 = r.bytes h2) → fs.load h1 v = fs.load h2 v
  | .nil, _, _, _, _, _ => rfl
  | .cons _ t fs, h1, h2, v, hg, hr => by
    simp only [HFields.load]
    rw [load_congr t h1 h2 v.1 hg.1 fun r h => hr r (by simp [HFields.refs, h]),
      loadFields_congr fs h1 h2 v.2 hg.2 fun r h => hr r (by simp [HFields.refs, h])]
end

mutual
theorem load_zero : ∀ (t : HTy), HGood t → ∀ h, t.load h t.zero = t.erase.zero ∧ ∀ r ∈ t.refs t.zero, r.len = 0
  | .custom c, hg, h => ⟨hg.zero h, hg.zero_refs⟩
  | .byteSlice, _, h => by
    refine ⟨?_, ?_⟩
    · simp [HTy.load, HTy.zero, Ty.zero, Ref.bytes, Ref.nil]
    · simp [HTy.refs, HTy.zero, Ref.nil]
  | .arr n t, hg, h => by
    have ih := load_zero t hg h
    refine ⟨?_, ?_⟩
    · apply Subtype.ext
      simp only [HTy.load, HTy.zero, Ty.zero, List.map_replicate, ih.1]
    · intro r hr
      simp only [HTy.refs, HTy.zero, List.mem_flatten, List.mem_map] at hr
      obtain ⟨_, ⟨x, hx, rfl⟩, hr⟩ := hr
      rw [(List.mem_replicate.1 hx).2] at hr
      exact ih.2 r hr
  | .slice t, _, h => ⟨rfl, by simp [HTy.refs, HTy.zero]⟩
  | .ptr t, _, h => ⟨rfl, by simp [HTy.refs, HTy.zero]⟩
  | .struct fs, hg, h => loadFields_zero fs hg h
  | .num _, _, h | .bool, _, h | .str, _, h | .byteArr _, _, h | .unsupported _ _, _, h =>
    ⟨by simp only [HTy.load, HTy.zero, Ty.zero], by simp [HTy.refs]⟩
theorem loadFields_zero : ∀ (fs : HFields), HGoodFields fs → ∀ h, fs.load h fs.zero = fs.erase.zero ∧
    ∀ r ∈ fs.refs fs.zero, r.len = 0
  | .nil, _, h => ⟨rfl, by simp [HFields.refs]⟩
  | .cons _ t fs, hg, h => by
    have h1 := load_zero t hg.1 h
    have h2 := loadFields_zero fs hg.2 h
    refine ⟨?_, ?_⟩
    · simp only [HFields.load, HFields.zero, Fields.zero, h1.1, h2.1]
    · intro r hr
      rcases List.mem_append.1 hr with hr | hr
      · exact h1.2 r hr
      · exact h2.2 r hr
end

theorem popH_spec {h : Heap} {d : Ref} (hv : d.Valid h) (n : Nat) :
    match popH n d with
    | none => pop n (d.bytes h) = none
    | some (b, r) => pop n (d.bytes h) = some (b.bytes h, r.bytes h) ∧ d.Tail r ∧ b.Valid h ∧ b.len = n := by
  have hl := Ref.bytes_length hv
  unfold popH pop
  by_cases hn : n > d.len
  · rw [if_pos hn, if_pos (by rw [hl]; exact hn)]
  · rw [if_neg hn, if_neg (by rw [hl]; exact hn)]
    refine ⟨?_, ⟨rfl, by dsimp only; omega, by dsimp only; omega⟩, ⟨hv.1, ?_⟩, rfl⟩
    · simp only [Ref.bytes, Option.some.injEq, Prod.mk.injEq]
      refine ⟨?_, ?_⟩
      · rw [List.take_take]; congr 1; omega
      · rw [List.drop_take, List.drop_drop]
    · have := hv.2
      dsimp only
      omega

theorem readLenH_spec {h : Heap} {d : Ref} (hv : d.Valid h) (ts : Tags) :
    match readLenH ts h d with
    | .ok u r => readLen ts (d.bytes h) = .ok u (r.bytes h) ∧ d.Tail r
    | .err e r => readLen ts (d.bytes h) = .err e (r.bytes h) ∧ d.Tail r
    | .panic => readLen ts (d.bytes h) = .panic := by
  unfold readLenH readLen
  cases ts.lenTag with
  | none => exact ⟨rfl, .refl d⟩
  | some k =>
    have hp := popH_spec hv k.size
    cases hq : popH k.size d with
    | none =>
      rw [hq] at hp
      dsimp only at hp
      simp only [hq, hp]
      exact ⟨trivial, .refl d⟩
    | some br =>
      obtain ⟨b, r⟩ := br
      rw [hq] at hp
      dsimp only at hp
      simp only [hq, hp.1]
      by_cases hm : getBE (b.bytes h) > maxInt
      · simp only [if_pos hm]; exact ⟨trivial, hp.2.1⟩
      · simp only [if_neg hm]; exact ⟨trivial, hp.2.1⟩

def refsOpt {α : Type} (refs : α → List Ref) : Option α → List Ref
  | none => []
  | some x => refs x

theorem refs_ptr (t : HTy) : HTy.refs (.ptr t) = refsOpt t.refs := by
  funext v
  cases v <;> simp [HTy.refs, refsOpt]
theorem load_ptr (t : HTy) : HTy.load (.ptr t) = fun h (v : Option t.Cell) => v.map (t.load h) := by
  funext h v
  rw [HTy.load]

theorem Rel.map_some {α β : Type} {load : Heap → α → β} {refs : α → List Ref} {h : Heap} {d d0 : Ref} {x : Heap × HRes α}
    {y : Res β} (hx : Rel load refs h d x y) (ht : d0.Tail d) :
    Rel (fun h (v : Option α) => v.map (load h)) (refsOpt refs) h d0
      (x.1, x.2.map some) (y.map some) := by
  obtain ⟨h', r⟩ := x
  refine ⟨hx.1, ?_⟩
  have h2 := hx.2
  cases r with
  | ok v r =>
    dsimp only [HRes.map] at h2 ⊢
    rw [h2.1]
    exact ⟨rfl, h2.2.1, ht.trans h2.2.2⟩
  | err e r =>
    dsimp only [HRes.map] at h2 ⊢
    rw [h2.1]
    exact ⟨rfl, ht.trans h2.2⟩
  | panic =>
    dsimp only [HRes.map] at h2 ⊢
    rw [h2]; rfl

theorem runCustomH_spec {c : HCodec} (hc : LawfulH c) (p : c.Cell) (h : Heap) (d : Ref) (hv : d.Valid h)
    (hp : ∀ r ∈ c.refs p, r.Stable h) :
    Rel c.load c.refs h d (runCustomH c.dec p h d) (runCustom c.base.dec (c.load h p) (d.bytes h)) := by
  have hd := hc.dec p h d hv hp
  have hl := Ref.bytes_length hv
  unfold runCustomH runCustom
  cases hx : c.dec p h d with
  | mk h' r =>
    rw [hx] at hd
    cases r with
    | ok nv =>
      obtain ⟨n, v⟩ := nv
      dsimp only [RelOut] at hd
      rw [hd.2.1]
      dsimp only
      by_cases hn : n > d.len
      · rw [if_pos hn, if_pos (by rw [hl]; exact hn)]
        exact ⟨hd.1, rfl⟩
      · rw [if_neg hn, if_neg (by rw [hl]; exact hn)]
        refine ⟨hd.1, ?_, hd.2.2, rfl, by dsimp only; omega, by dsimp only; omega⟩
        simp only [Ref.bytes]
        rw [List.drop_take, List.drop_drop]
    | err e =>
      dsimp only [RelOut] at hd
      rw [hd.2]
      exact ⟨hd.1, rfl, .refl d⟩
    | panic =>
      dsimp only [RelOut] at hd
      rw [hd.2]
      exact ⟨hd.1, rfl⟩

theorem decLoopH_spec {α β : Type} {load : Heap → α → β} {refs : α → List Ref}
    {f : α → Heap → Ref → Heap × HRes α} {g : β → Bytes → Res β}
    (hcongr : ∀ h1 h2 v, (∀ r ∈ refs v, r.bytes h1 = r.bytes h2) → load h1 v = load h2 v)
    (hf : ∀ p h d, d.Valid h → (∀ r ∈ refs p, r.Stable h) → Rel load refs h d (f p h d) (g (load h p) (d.bytes h))) :
    ∀ (prev : List α) (prev' : List β) (h : Heap) (d : Ref), d.Valid h → (∀ p ∈ prev, ∀ r ∈ refs p, r.Stable h) →
      prev' = prev.map (load h) →
      Rel (fun h (l : { l : List α // l.length = prev.length }) => l.val.map (load h)) (fun l => (l.val.map refs).flatten) h d
        (decLoopH f prev h d) ((decLoop g prev' (d.bytes h)).map (·.val))
  | [], prev', h, d, hv, _, hp => by
    subst hp
    exact ⟨List.prefix_refl _, rfl, Own.nil _ _, .refl d⟩
  | p :: prev, prev', h, d, hv, hs, hp => by
    subst hp
    have h1 := hf p h d hv (hs p (by simp))
    rw [List.map_cons, decLoop, decLoopH]
    cases hx : f p h d with
    | mk h' r =>
      rw [hx] at h1
      cases r with
      | ok v d' =>
        obtain ⟨hpre, hy, hown, htl⟩ := h1
        dsimp only at hpre hy hown htl
        have hv' : d'.Valid h' := (htl.valid hv).mono hpre
        have hs' : ∀ q ∈ prev, ∀ r ∈ refs q, r.Stable h' := fun q hq r hr => (hs q (by simp [hq]) r hr).mono hpre
        have hmap : prev.map (load h) = prev.map (load h') := by
          apply List.map_congr_left
          intro q hq
          exact hcongr _ _ _ fun r hr => (Ref.bytes_prefix hpre (hs q (by simp [hq]) r hr)).symm
        have ih := decLoopH_spec hcongr hf prev (prev.map (load h)) h' d' hv' hs' hmap
        have hb : d'.bytes h' = d'.bytes h := Ref.bytes_prefix hpre (htl.valid hv).stable
        rw [hb] at ih
        simp only [hy]
        cases hz : decLoopH f prev h' d' with
        | mk h'' r2 =>
          rw [hz] at ih
          obtain ⟨hpre2, ih⟩ := ih
          dsimp only at hpre2
          cases r2 with
          | ok l d'' =>
            dsimp only at ih
            obtain ⟨h5, h6, h7⟩ := ih
            cases hl : decLoop g (prev.map (load h)) (d'.bytes h) with
            | ok l' r' =>
              rw [hl] at h5
              simp only [Res.map, Res.ok.injEq] at h5
              refine ⟨hpre.trans hpre2, ?_, ?_, htl.trans h7⟩
              · dsimp only [Res.map]
                rw [h5.1, h5.2, List.map_cons]
                rw [Ref.bytes_prefix hpre (h7.valid (htl.valid hv)).stable]
                rw [hcongr h' h'' v fun r hr => (Ref.bytes_prefix hpre2 (hown.stable r hr)).symm]
              · dsimp only
                rw [List.map_cons, List.flatten_cons]
                exact hown.append h6 hpre.length_le hpre2
            | err e r' => rw [hl] at h5; simp [Res.map] at h5
            | panic => rw [hl] at h5; simp [Res.map] at h5
          | err e d'' =>
            dsimp only at ih
            cases hl : decLoop g (prev.map (load h)) (d'.bytes h) with
            | ok l' r' => rw [hl] at ih; simp [Res.map] at ih
            | err e' r' =>
              rw [hl] at ih
              simp only [Res.map, Res.err.injEq] at ih
              refine ⟨hpre.trans hpre2, ?_, htl.trans ih.2⟩
              dsimp only [Res.map]
              rw [ih.1.1, ih.1.2, Ref.bytes_prefix hpre (ih.2.valid (htl.valid hv)).stable]
            | panic => rw [hl] at ih; simp [Res.map] at ih
          | panic =>
            dsimp only at ih
            cases hl : decLoop g (prev.map (load h)) (d'.bytes h) with
            | ok l' r' => rw [hl] at ih; simp [Res.map] at ih
            | err e' r' => rw [hl] at ih; simp [Res.map] at ih
            | panic => exact ⟨hpre.trans hpre2, rfl⟩
      | err e d' =>
        obtain ⟨hpre, hy, htl⟩ := h1
        simp only [hy]
        exact ⟨hpre, rfl, htl⟩
      | panic =>
        obtain ⟨hpre, hy⟩ := h1
        dsimp only at hy
        simp only [hy]
        exact ⟨hpre, rfl⟩

theorem getD_append_new (h : Heap) (a : Bytes) : (h ++ [a])[h.length]?.getD [] = a := by simp

theorem allocCopy_spec {h : Heap} {b : Ref} (hv : b.Valid h) : h <+: (allocCopy h b).1 ∧
    (allocCopy h b).2.bytes (allocCopy h b).1 = b.bytes h ∧ Own h.length (allocCopy h b).1 [(allocCopy h b).2] ∧
    (allocCopy h b).2.Valid (allocCopy h b).1 := by
  have hl := Ref.bytes_length hv
  have hval : (allocCopy h b).2.Valid (allocCopy h b).1 := by
    refine ⟨by simp [allocCopy], ?_⟩
    simp only [allocCopy]
    rw [getD_append_new]
    omega
  refine ⟨List.prefix_append _ _, ?_, ⟨?_, by simp⟩, hval⟩
  · show (((h ++ [b.bytes h])[h.length]?.getD []).drop 0).take b.len = b.bytes h
    rw [getD_append_new, List.drop_zero, List.take_of_length_le (by omega)]
  · intro r hr
    simp only [List.mem_singleton] at hr
    rw [hr]
    exact ⟨Nat.le_refl _, hval⟩

/-- Results without references. -/
theorem Rel.plain {α : Type} {h : Heap} {d : Ref} {x : HRes α} {y : Res α}
    (hx : match x with
      | .ok v r => y = .ok v (r.bytes h) ∧ d.Tail r
      | .err e r => y = .err e (r.bytes h) ∧ d.Tail r
      | .panic => y = .panic) : Rel (fun _ v => v) (fun _ => []) h d (h, x) y := by
  refine ⟨List.prefix_refl _, ?_⟩
  cases x with
  | ok v r => exact ⟨hx.1, Own.nil _ _, hx.2⟩
  | err e r => exact hx
  | panic => exact hx

mutual
theorem decodeH_spec : ∀ (t : HTy) (prev : t.Cell) (ts : Tags) (h : Heap) (d : Ref), HGood t → d.Valid h →
    (∀ r ∈ t.refs prev, r.Stable h) →
    Rel t.load t.refs h d (decodeH t prev ts h d) (decode (fun _ => true) t.erase (t.load h prev) ts (d.bytes h))
  | .custom c, prev, ts, h, d, hg, hv, hp => by
    rw [decodeH, decode]
    exact runCustomH_spec hg prev h d hv hp
  | .ptr t, prev, ts, h, d, hg, hv, hp => by
    have ht : t.erase.customDec = none := customDec_none hg.2
    have hz := load_zero t hg.1 h
    have ih := fun (d : Ref) (hv : d.Valid h) => decodeH_spec t t.zero ts h d hg.1 hv fun r hr => .inl (hz.2 r hr)
    rw [hz.1] at ih
    rw [decodeH, decode, ht]
    dsimp only
    cases ho : ts.optional with
    | true =>
      simp only [if_true]
      have h1 := popH_spec hv 1
      cases hq : popH 1 d with
      | none =>
        rw [hq] at h1
        dsimp only at h1
        simp only [h1]
        exact ⟨List.prefix_refl _, rfl, .refl d⟩
      | some br =>
        obtain ⟨b, r⟩ := br
        rw [hq] at h1
        dsimp only at h1
        simp only [h1.1]
        by_cases h0 : b.bytes h = [0x00]
        · rw [if_pos h0, if_pos h0]
          exact ⟨List.prefix_refl _, rfl, Own.nil _ _, h1.2.1⟩
        · rw [if_neg h0, if_neg h0]
          by_cases h01 : b.bytes h = [0x01]
          · rw [if_pos h01, if_pos h01]
            rw [refs_ptr, load_ptr]
            exact (ih r (h1.2.1.valid hv)).map_some h1.2.1
          · rw [if_neg h01, if_neg h01]
            exact ⟨List.prefix_refl _, rfl, h1.2.1⟩
    | false =>
      simp only [Bool.false_eq_true, if_false]
      rw [refs_ptr, load_ptr]
      exact (ih d hv).map_some (.refl d)
  | .byteArr n, prev, ts, h, d, hg, hv, hp => by
    rw [decodeH, decode]
    have h1 := popH_spec hv n
    cases hq : popH n d with
    | none =>
      rw [hq] at h1
      dsimp only at h1
      simp only [h1]
      exact Rel.plain ⟨rfl, .refl d⟩
    | some br =>
      obtain ⟨b, r⟩ := br
      rw [hq] at h1
      dsimp only at h1
      simp only [h1.1]
      exact Rel.plain ⟨rfl, h1.2.1⟩
  | .arr n t, prev, ts, h, d, hg, hv, hp => by
    have hL := decLoopH_spec (f := fun p h d => decodeH t p {} h d) (g := fun p d => decode (fun _ => true) t.erase p {} d)
      (fun h1 h2 v => load_congr t h1 h2 v hg) (fun p h d hv hp => decodeH_spec t p {} h d hg hv hp)
      prev.val _ h d hv (fun p hm r hr => hp r (by
        simp only [HTy.refs, List.mem_flatten, List.mem_map]
        exact ⟨_, ⟨p, hm, rfl⟩, hr⟩)) rfl
    rw [decodeH, decode]
    have hval : (HTy.load (.arr n t) h prev).val = prev.val.map (t.load h) := by rw [HTy.load]
    rw [← hval] at hL
    cases hx : decLoopH (fun p h d => decodeH t p {} h d) prev.val h d with
    | mk h' r =>
      rw [hx] at hL
      obtain ⟨hpre, hL⟩ := hL
      dsimp only at hpre
      cases r with
      | ok l d' =>
        dsimp only at hL
        obtain ⟨h5, h6, h7⟩ := hL
        cases hl : decLoop (fun p d => decode (fun _ => true) t.erase p {} d) (HTy.load (.arr n t) h prev).val (d.bytes h) with
        | ok l' r' =>
          rw [hl] at h5
          simp only [Res.map, Res.ok.injEq] at h5
          refine ⟨hpre, ?_, h6, h7⟩
          dsimp only
          rw [h5.2]
          congr 1
          apply Subtype.ext
          simp only [HTy.load]
          exact h5.1
        | err e r' => rw [hl] at h5; simp [Res.map] at h5
        | panic => rw [hl] at h5; simp [Res.map] at h5
      | err e d' =>
        dsimp only at hL
        cases hl : decLoop (fun p d => decode (fun _ => true) t.erase p {} d) (HTy.load (.arr n t) h prev).val (d.bytes h) with
        | ok l' r' => rw [hl] at hL; simp [Res.map] at hL
        | err e' r' =>
          rw [hl] at hL
          simp only [Res.map, Res.err.injEq] at hL
          refine ⟨hpre, ?_, hL.2⟩
          dsimp only
          rw [hL.1.1, hL.1.2]
        | panic => rw [hl] at hL; simp [Res.map] at hL
      | panic =>
        dsimp only at hL
        cases hl : decLoop (fun p d => decode (fun _ => true) t.erase p {} d) (HTy.load (.arr n t) h prev).val (d.bytes h) with
        | ok l' r' => rw [hl] at hL; simp [Res.map] at hL
        | err e' r' => rw [hl] at hL; simp [Res.map] at hL
        | panic => exact ⟨hpre, rfl⟩
  | .str, prev, ts, h, d, hg, hv, hp => by
    rw [decodeH, decode]
    have hr := readLenH_spec hv ts
    cases hq : readLenH ts h d with
    | ok u d' =>
      rw [hq] at hr
      dsimp only at hr
      simp only [hr.1]
      have h1 := popH_spec (hr.2.valid hv) u
      cases hq2 : popH u d' with
      | none =>
        rw [hq2] at h1
        dsimp only at h1
        simp only [h1]
        exact Rel.plain ⟨rfl, hr.2⟩
      | some br =>
        obtain ⟨b, r⟩ := br
        rw [hq2] at h1
        dsimp only at h1
        simp only [h1.1]
        exact Rel.plain ⟨rfl, hr.2.trans h1.2.1⟩
    | err e r =>
      rw [hq] at hr
      dsimp only at hr
      simp only [hr.1]
      exact Rel.plain ⟨rfl, hr.2⟩
    | panic =>
      rw [hq] at hr
      dsimp only at hr
      simp only [hr]
      exact Rel.plain rfl
  | .byteSlice, prev, ts, h, d, hg, hv, hp => by
    rw [decodeH, decode]
    have hr := readLenH_spec hv ts
    cases hq : readLenH ts h d with
    | ok u d' =>
      rw [hq] at hr
      dsimp only at hr
      simp only [hr.1]
      have h1 := popH_spec (hr.2.valid hv) u
      cases hq2 : popH u d' with
      | none =>
        rw [hq2] at h1
        dsimp only at h1
        simp only [h1]
        exact ⟨List.prefix_refl _, rfl, hr.2⟩
      | some br =>
        obtain ⟨b, r⟩ := br
        rw [hq2] at h1
        dsimp only at h1
        simp only [h1.1, if_true]
        obtain ⟨ha, hb, hc, _⟩ := allocCopy_spec h1.2.2.1
        refine ⟨ha, ?_, hc, hr.2.trans h1.2.1⟩
        simp only [HTy.load, hb]
    | err e r =>
      rw [hq] at hr
      dsimp only at hr
      simp only [hr.1]
      exact ⟨List.prefix_refl _, rfl, hr.2⟩
    | panic =>
      rw [hq] at hr
      dsimp only at hr
      simp only [hr]
      exact ⟨List.prefix_refl _, rfl⟩
  | .slice t, prev, ts, h, d, hg, hv, hp => by
    rw [decodeH, decode]
    have hr := readLenH_spec hv ts
    cases hq : readLenH ts h d with
    | ok u d' =>
      rw [hq] at hr
      dsimp only at hr
      have hv' := hr.2.valid hv
      simp only [hr.1, Ref.bytes_length hv']
      by_cases hu : u > d'.len
      · rw [if_pos hu, if_pos hu]
        exact ⟨List.prefix_refl _, rfl, hr.2⟩
      · rw [if_neg hu, if_neg hu]
        simp only [if_true]
        have hz := load_zero t hg h
        have hL := decLoopH_spec (f := fun p h d => decodeH t p {} h d) (g := fun p d => decode (fun _ => true) t.erase p {} d)
          (fun h1 h2 v => load_congr t h1 h2 v hg) (fun p h d hv hp => decodeH_spec t p {} h d hg hv hp)
          (List.replicate u t.zero) (List.replicate u t.erase.zero) h d' hv' (fun p hm r hr => by
            rw [(List.mem_replicate.1 hm).2] at hr
            exact .inl (hz.2 r hr)) (by rw [List.map_replicate, hz.1])
        cases hx : decLoopH (fun p h d => decodeH t p {} h d) (List.replicate u t.zero) h d' with
        | mk h' r =>
          rw [hx] at hL
          obtain ⟨hpre, hL⟩ := hL
          dsimp only at hpre
          refine ⟨hpre, ?_⟩
          cases r with
          | ok l r' =>
            dsimp only at hL
            dsimp only [HRes.map]
            exact ⟨hL.1, hL.2.1, hr.2.trans hL.2.2⟩
          | err e r' =>
            dsimp only at hL
            dsimp only [HRes.map]
            exact ⟨hL.1, hr.2.trans hL.2⟩
          | panic => exact hL
    | err e r =>
      rw [hq] at hr
      dsimp only at hr
      simp only [hr.1]
      exact ⟨List.prefix_refl _, rfl, hr.2⟩
    | panic =>
      rw [hq] at hr
      dsimp only at hr
      simp only [hr]
      exact ⟨List.prefix_refl _, rfl⟩
  | .struct fs, prev, ts, h, d, hg, hv, hp => by
    rw [decodeH, decode]
    exact decodeFieldsH_spec fs prev h d hg hv hp
  | .bool, prev, ts, h, d, hg, hv, hp => by
    rw [decodeH, decode]
    have h1 := popH_spec hv 1
    cases hq : popH 1 d with
    | none =>
      rw [hq] at h1
      dsimp only at h1
      simp only [h1]
      exact Rel.plain ⟨rfl, .refl d⟩
    | some br =>
      obtain ⟨b, r⟩ := br
      rw [hq] at h1
      dsimp only at h1
      simp only [h1.1]
      by_cases h0 : b.bytes h = [0]
      · rw [if_pos h0, if_pos h0]; exact Rel.plain ⟨rfl, h1.2.1⟩
      · rw [if_neg h0, if_neg h0]
        by_cases h01 : b.bytes h = [1]
        · rw [if_pos h01, if_pos h01]; exact Rel.plain ⟨rfl, h1.2.1⟩
        · rw [if_neg h01, if_neg h01]; exact Rel.plain ⟨rfl, h1.2.1⟩
  | .num k, prev, ts, h, d, hg, hv, hp => by
    rw [decodeH, decode]
    have h1 := popH_spec hv k.size
    cases hq : popH k.size d with
    | none =>
      rw [hq] at h1
      dsimp only at h1
      simp only [h1]
      exact Rel.plain ⟨rfl, .refl d⟩
    | some br =>
      obtain ⟨b, r⟩ := br
      rw [hq] at h1
      dsimp only at h1
      simp only [h1.1]
      exact Rel.plain ⟨rfl, h1.2.1⟩
  | .unsupported _ _, prev, ts, h, d, hg, hv, hp => by
    rw [decodeH, decode]
    exact Rel.plain ⟨rfl, .refl d⟩
theorem decodeFieldsH_spec : ∀ (fs : HFields) (prev : fs.Cell) (h : Heap) (d : Ref), HGoodFields fs → d.Valid h →
    (∀ r ∈ fs.refs prev, r.Stable h) →
    Rel fs.load fs.refs h d (decodeFieldsH fs prev h d) (decodeFields (fun _ => true) fs.erase (fs.load h prev) (d.bytes h))
  | .nil, prev, h, d, hg, hv, hp => by
    rw [decodeFieldsH, decodeFields]
    exact ⟨List.prefix_refl _, rfl, Own.nil _ _, .refl d⟩
  | .cons tag t fs, prev, h, d, hg, hv, hp => by
    rw [decodeFieldsH, decodeFields]
    cases htag : fieldTags tag with
    | none => exact ⟨List.prefix_refl _, rfl⟩
    | some ts =>
      have ih := decodeH_spec t prev.1 ts h d hg.1 hv fun r hr => hp r (by simp [HFields.refs, hr])
      have hl1 : (HFields.load (.cons tag t fs) h prev).1 = t.load h prev.1 := by rw [HFields.load]
      have hl2 : (HFields.load (.cons tag t fs) h prev).2 = fs.load h prev.2 := by rw [HFields.load]
      rw [hl1, hl2]
      dsimp only
      cases hx : decodeH t prev.1 ts h d with
      | mk h' r =>
        rw [hx] at ih
        cases r with
        | ok v d' =>
          obtain ⟨hpre, hy, hown, htl⟩ := ih
          dsimp only at hpre hy hown htl
          have hs' : ∀ r ∈ fs.refs prev.2, r.Stable h := fun r hr => hp r (by simp [HFields.refs, hr])
          have ih2 := decodeFieldsH_spec fs prev.2 h' d' hg.2 ((htl.valid hv).mono hpre) fun r hr => (hs' r hr).mono hpre
          rw [Ref.bytes_prefix hpre (htl.valid hv).stable,
            loadFields_congr fs h' h prev.2 hg.2 fun r hr => Ref.bytes_prefix hpre (hs' r hr)] at ih2
          simp only [hy]
          cases hz : decodeFieldsH fs prev.2 h' d' with
          | mk h'' r2 =>
            rw [hz] at ih2
            obtain ⟨hpre2, ih2⟩ := ih2
            dsimp only at hpre2
            refine ⟨hpre.trans hpre2, ?_⟩
            cases r2 with
            | ok vs d'' =>
              dsimp only at ih2
              dsimp only [HRes.map]
              rw [ih2.1, Ref.bytes_prefix hpre (ih2.2.2.valid (htl.valid hv)).stable]
              refine ⟨?_, hown.append ih2.2.1 hpre.length_le hpre2, htl.trans ih2.2.2⟩
              simp only [Res.map, HFields.load]
              rw [load_congr t h'' h' v hg.1 fun r hr => Ref.bytes_prefix hpre2 (hown.stable r hr)]
            | err e d'' =>
              dsimp only at ih2
              dsimp only [HRes.map]
              rw [ih2.1, Ref.bytes_prefix hpre (ih2.2.valid (htl.valid hv)).stable]
              exact ⟨rfl, htl.trans ih2.2⟩
            | panic =>
              dsimp only at ih2
              dsimp only [HRes.map]
              rw [ih2]
              rfl
        | err e d' =>
          obtain ⟨hpre, hy, htl⟩ := ih
          simp only [hy]
          exact ⟨hpre, rfl, htl⟩
        | panic =>
          obtain ⟨hpre, hy⟩ := ih
          dsimp only at hy
          simp only [hy]
          exact ⟨hpre, rfl⟩
end

theorem plain_lawfulH (c : Codec) (as : c.α → Trace) : LawfulH (.plain c as) where
  congr _ _ _ _ := rfl
  zero _ := rfl
  zero_refs r hr := by simp [HCodec.plain] at hr
  dec p h d hv hp := by
    refine ⟨List.prefix_refl _, ?_⟩
    simp only [HCodec.plain]
    cases c.dec p (d.bytes h) with
    | ok nv => exact ⟨rfl, Own.nil _ _⟩
    | err e => rfl
    | panic => rfl

/-- **C120.** `Unmarshal` of a buffer into a variable, in memory `h`: the result is that of the model without memory (so all
that is proved about it holds), and no array that existed before the call is written, neither the input buffer nor anything
the variable or anybody else refers to. -/
theorem C120_writes_nothing_old (t : HTy) (ht : HGood t) (prev : t.Cell) (h : Heap) (buf : Ref) (hbuf : buf.Valid h)
    (hprev : ∀ r ∈ t.refs prev, r.Valid h ∨ r.len = 0) :
    h <+: (UnmarshalH t prev h buf).1 ∧
    match (UnmarshalH t prev h buf).2 with
    | .ok v rest => Unmarshal t.erase (t.load h prev) (buf.bytes h) =
        .ok (t.load (UnmarshalH t prev h buf).1 v) (rest.bytes h)
    | .err e rest => Unmarshal t.erase (t.load h prev) (buf.bytes h) = .err e (rest.bytes h)
    | .panic => Unmarshal t.erase (t.load h prev) (buf.bytes h) = .panic := by
  have hs := decodeH_spec t prev {} h buf ht hbuf fun r hr => (hprev r hr).elim (fun hv => hv.stable) .inl
  refine ⟨hs.1, ?_⟩
  have h2 := hs.2
  unfold UnmarshalH Unmarshal
  cases hx : (decodeH t prev {} h buf).2 with
  | ok v r => rw [hx] at h2; exact h2.1
  | err e r => rw [hx] at h2; exact h2.1
  | panic => rw [hx] at h2; exact h2

/-- **C120.** Every slice in a decoded value is to an array of its own, allocated during the call. -/
theorem C120_slices_are_new (t : HTy) (ht : HGood t) (prev v : t.Cell) (h h' : Heap) (buf rest : Ref) (hbuf : buf.Valid h)
    (hprev : ∀ r ∈ t.refs prev, r.Valid h ∨ r.len = 0) (hok : UnmarshalH t prev h buf = (h', .ok v rest)) :
    (∀ r ∈ t.refs v, h.length ≤ r.arr ∧ r.Valid h') ∧ ((t.refs v).map (·.arr)).Nodup ∧
      buf.arr ∉ (t.refs v).map (·.arr) := by
  have hs := decodeH_spec t prev {} h buf ht hbuf fun r hr => (hprev r hr).elim (fun hv => hv.stable) .inl
  rw [show decodeH t prev {} h buf = (h', .ok v rest) from hok] at hs
  refine ⟨hs.2.2.1.1, hs.2.2.1.2, ?_⟩
  intro hm
  obtain ⟨r, hr, he⟩ := List.mem_map.1 hm
  have h1 := (hs.2.2.1.1 r hr).1
  have h2 := hbuf.1
  omega

/-- **C120.** So the value does not change when the input buffer, or any other memory from before the call, is overwritten:
`later` is the memory at any later time, of which nothing is assumed but that the arrays allocated by the call are as the
call left them. -/
theorem C120_input_can_be_reused (t : HTy) (ht : HGood t) (prev v : t.Cell) (h h' later : Heap) (buf rest : Ref)
    (hbuf : buf.Valid h) (hprev : ∀ r ∈ t.refs prev, r.Valid h ∨ r.len = 0)
    (hok : UnmarshalH t prev h buf = (h', .ok v rest)) (hl : ∀ i, h.length ≤ i → later[i]? = h'[i]?) :
    t.load later v = t.load h' v ∧
      Unmarshal t.erase (t.load h prev) (buf.bytes h) = .ok (t.load later v) (rest.bytes h) := by
  have h1 := (C120_slices_are_new t ht prev v h h' buf rest hbuf hprev hok).1
  have h2 : t.load later v = t.load h' v := by
    apply load_congr t _ _ _ ht
    intro r hr
    unfold Ref.bytes
    rw [hl r.arr (h1 r hr).1]
  refine ⟨h2, ?_⟩
  have h3 := (C120_writes_nothing_old t ht prev h buf hbuf hprev).2
  rw [hok] at h3
  rw [h2]
  exact h3

/-- And the other way round: writing to the slices of the value changes no slice that existed before, in particular not the
input. -/
theorem C120_value_can_be_changed (t : HTy) (ht : HGood t) (prev v : t.Cell) (h h' later : Heap) (buf rest old : Ref)
    (hbuf : buf.Valid h) (hprev : ∀ r ∈ t.refs prev, r.Valid h ∨ r.len = 0)
    (hok : UnmarshalH t prev h buf = (h', .ok v rest)) (hold : old.Valid h)
    (hl : ∀ i, i ∉ (t.refs v).map (·.arr) → later[i]? = h'[i]?) : old.bytes later = old.bytes h := by
  have h1 := (C120_slices_are_new t ht prev v h h' buf rest hbuf hprev hok).1
  have h3 := (C120_writes_nothing_old t ht prev h buf hbuf hprev).1
  rw [hok] at h3
  have h4 : old.arr ∉ (t.refs v).map (·.arr) := by
    intro hm
    obtain ⟨r, hr, he⟩ := List.mem_map.1 hm
    have := (h1 r hr).1
    have := hold.1
    omega
  rw [← Ref.bytes_prefix h3 hold.stable]
  unfold Ref.bytes
  rw [hl old.arr h4]

end Nimiq.Beserial
