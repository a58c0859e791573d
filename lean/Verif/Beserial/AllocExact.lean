import Verif.Beserial.WorkExact
/-!
# C101: a successful `Unmarshal` requests exactly the memory of the value

The bounds of Alloc.lean would hold as well if some allocations were not counted. Here the count is compared with the value.
-/
namespace Nimiq.Beserial

mutual
/-- The bytes of memory behind a value, not those of the variable itself: the contents of strings, the elements of slices and what
pointers point to. -/
def behind : (t : Ty) → t.Val → Nat
  | .custom _, _ => 0
  | .ptr t, v => match v with
    | none => 0
    | some x => t.size + behind t x
  | .byteArr _, _ => 0
  | .arr _ t, v => (v.val.map (behind t)).sum
  | .str, v => v.length
  | .byteSlice, v => v.length
  | .slice t, v => v.length * t.size + (v.map (behind t)).sum
  | .struct fs, v => behindFields fs v
  | .bool, _ => 0
  | .num _, _ => 0
  | .unsupported _ _, _ => 0
/-- The bytes of memory behind the fields of a struct. -/
def behindFields : (fs : Fields) → fs.Val → Nat
  | .nil, _ => 0
  | .cons _ t fs, v => behind t v.1 + behindFields fs v.2
end

mutual
theorem alloc_exact : ∀ (t : Ty) (prev : t.Val) (ts : Tags) (d : Bytes) (v : t.Val) (r : Bytes), NoCustom t = true →
    decode (fun _ => true) t prev ts d = .ok v r → alloc t prev ts d = behind t v
  | .custom c, prev, ts, d, v, r, hn, h => by cases hn
  | .ptr t, prev, ts, d, v, r, hn, h => by
    have hn : NoCustom t = true := hn
    have ht := noCustom_dec hn
    have ih := fun d w r => alloc_exact t t.zero ts d w r hn
    rw [decode, ht] at h
    rw [alloc, ht]
    dsimp only at h ⊢
    cases ho : ts.optional with
    | true =>
      simp only [ho, if_true] at h ⊢
      cases hp : pop 1 d with
      | none => rw [hp] at h; cases h
      | some fr =>
        obtain ⟨flag, d'⟩ := fr
        rw [hp] at h
        dsimp only at h ⊢
        by_cases h0 : flag = [0x00]
        · rw [if_pos h0] at h
          have h01 : ¬ flag = [0x01] := by rw [h0]; decide
          cases h
          rw [if_neg h01, behind]
        · rw [if_neg h0] at h
          by_cases h1 : flag = [0x01]
          · rw [if_pos h1] at h ⊢
            obtain ⟨w, hw, hv⟩ := Res.map_ok h
            subst hv
            rw [ih _ _ _ hw, behind]
          · rw [if_neg h1] at h; cases h
    | false =>
      simp only [ho, Bool.false_eq_true, if_false] at h ⊢
      obtain ⟨w, hw, hv⟩ := Res.map_ok h
      subst hv
      rw [ih _ _ _ hw, behind]
  | .byteArr n, prev, ts, d, v, r, hn, h => by rw [alloc, behind]
  | .arr n t, prev, ts, d, v, r, hn, h => by
    rw [decode] at h
    rw [alloc, behind]
    cases hl : decLoop (fun p d => decode (fun _ => true) t p {} d) prev.val d with
    | ok l d' =>
      rw [hl] at h
      cases h
      rw [allocLoop_exact _ _ (behind t) (fun p d v r => alloc_exact t p {} d v r hn) _ _ _ _ hl]
    | err e d' => rw [hl] at h; cases h
    | panic => rw [hl] at h; cases h
  | .str, prev, ts, d, v, r, hn, h => by
    rw [decode] at h
    rw [alloc, behind]
    cases hr : readLen ts d with
    | ok u d' =>
      rw [hr] at h
      dsimp only at h ⊢
      cases hp : pop u d' with
      | none => rw [hp] at h; cases h
      | some br =>
        obtain ⟨b, d''⟩ := br
        rw [hp] at h
        cases h
        rw [(pop_some hp).1]
    | err e d' => rw [hr] at h; cases h
    | panic => rw [hr] at h; cases h
  | .byteSlice, prev, ts, d, v, r, hn, h => by
    rw [decode] at h
    rw [alloc, behind]
    cases hr : readLen ts d with
    | ok u d' =>
      rw [hr] at h
      simp only [if_true] at h ⊢
      cases hp : pop u d' with
      | none => rw [hp] at h; cases h
      | some br =>
        obtain ⟨b, d''⟩ := br
        rw [hp] at h
        cases h
        rw [(pop_some hp).1]
    | err e d' => rw [hr] at h; cases h
    | panic => rw [hr] at h; cases h
  | .slice t, prev, ts, d, v, r, hn, h => by
    rw [decode] at h
    rw [alloc, behind]
    cases hr : readLen ts d with
    | ok u d' =>
      rw [hr] at h
      simp only [if_true] at h ⊢
      by_cases hu : u > d'.length
      · rw [if_pos hu] at h; cases h
      · rw [if_neg hu] at h ⊢
        obtain ⟨l, hl, hv⟩ := Res.map_ok h
        subst hv
        have hlen : l.val.length = u := by rw [l.property, List.length_replicate]
        rw [allocLoop_exact _ _ (behind t) (fun p d v r => alloc_exact t p {} d v r hn) _ _ _ _ hl]
        rw [hlen]
    | err e d' => rw [hr] at h; cases h
    | panic => rw [hr] at h; cases h
  | .struct fs, prev, ts, d, v, r, hn, h => by
    rw [decode] at h
    rw [alloc, behind, allocFields_exact fs prev d v r hn h]
  | .bool, prev, ts, d, v, r, hn, h => by rw [alloc, behind]
  | .num k, prev, ts, d, v, r, hn, h => by rw [alloc, behind]
  | .unsupported _ _, prev, ts, d, v, r, hn, h => by rw [alloc, behind]
theorem allocFields_exact : ∀ (fs : Fields) (prev : fs.Val) (d : Bytes) (v : fs.Val) (r : Bytes), NoCustomFields fs = true →
    decodeFields (fun _ => true) fs prev d = .ok v r → allocFields fs prev d = behindFields fs v
  | .nil, prev, d, v, r, hn, h => by rw [allocFields, behindFields]
  | .cons tag t fs, prev, d, v, r, hn, h => by
    rw [NoCustomFields, Bool.and_eq_true] at hn
    rw [decodeFields] at h
    rw [allocFields, behindFields]
    cases htag : fieldTags tag with
    | none => rw [htag] at h; cases h
    | some ts =>
      rw [htag] at h
      dsimp only at h ⊢
      cases hd : decode (fun _ => true) t prev.1 ts d with
      | ok w d' =>
        rw [hd] at h
        dsimp only at h ⊢
        obtain ⟨vs, hvs, hv⟩ := Res.map_ok h
        subst hv
        rw [alloc_exact t prev.1 ts d w d' hn.1 hd, allocFields_exact fs prev.2 d' vs r hn.2 hvs]
      | err e d' => rw [hd] at h; cases h
      | panic => rw [hd] at h; cases h
end

/-- **C101.** If `Unmarshal` succeeds, it has requested exactly the memory behind the value that it returns, whatever the variable
held before: nothing is requested and thrown away (types without custom methods). -/
theorem C101_exact (t : Ty) (ht : NoCustom t = true) (prev v : t.Val) (data rest : Bytes) (h : Unmarshal t prev data = .ok v rest) :
    unmarshalAlloc t prev data = behind t v := alloc_exact t prev {} data v rest ht h

/-- The type and the value of the examples of C29. -/
example : unmarshalAlloc exTy exTy.zero exBytes = behind exTy exVal ∧ 0 < behind exTy exVal := by
  refine ⟨C101_exact exTy rfl exTy.zero exVal exBytes [] ?_, by decide⟩
  have := ((C29_round_trip exTy exTy_good exVal exBytes exVal_enc).2.2 exTy.zero []).1
  rwa [List.append_nil] at this

end Nimiq.Beserial
