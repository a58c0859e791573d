import Verif.Beserial.Work
/-!
# C119: a successful `Unmarshal` takes exactly as many steps as the value has parts

The bounds of Work.lean would hold as well if some steps were not counted. Here the count is compared with the value.
-/
namespace Nimiq.Beserial

mutual
/-- No type with custom methods in the type. -/
def NoCustom : Ty → Bool
  | .custom _ => false
  | .arr _ t | .slice t | .ptr t => NoCustom t
  | .struct fs => NoCustomFields fs
  | .num _ | .bool | .str | .byteArr _ | .byteSlice | .unsupported _ _ => true
def NoCustomFields : Fields → Bool
  | .nil => true
  | .cons _ t fs => NoCustom t && NoCustomFields fs
end

mutual
/-- The parts of a value: itself, every value in it (elements, fields, what pointers point to) and every byte of its strings,
byte slices and byte arrays. -/
def parts : (t : Ty) → t.Val → Nat
  | .custom _, _ => 1
  | .ptr t, v => match v with
    | none => 1
    | some x => 1 + parts t x
  | .byteArr n, _ => 1 + n
  | .arr _ t, v => 1 + (v.val.map (parts t)).sum
  | .str, v => 1 + v.length
  | .byteSlice, v => 1 + v.length
  | .slice t, v => 1 + (v.map (parts t)).sum
  | .struct fs, v => 1 + partsFields fs v
  | .bool, _ => 1
  | .num _, _ => 1
  | .unsupported _ _, _ => 1
/-- The parts of the fields of a struct. -/
def partsFields : (fs : Fields) → fs.Val → Nat
  | .nil, _ => 0
  | .cons _ t fs, v => parts t v.1 + partsFields fs v.2
end

theorem noCustom_dec {t : Ty} (h : NoCustom t = true) : t.customDec = none := by
  cases t <;> first | rfl | cases h

theorem allocLoop_exact {α} (f : α → Bytes → Res α) (g : α → Bytes → Nat) (m : α → Nat)
    (h : ∀ p d v r, f p d = .ok v r → g p d = m v) : ∀ (prev : List α) (d : Bytes) v r, decLoop f prev d = .ok v r →
    allocLoop f g prev d = (v.val.map m).sum
  | [], d, v, r, e => by
    simp only [decLoop, Res.ok.injEq] at e
    obtain ⟨rfl, _⟩ := e
    rfl
  | p :: prev, d, v, r, e => by
    simp only [decLoop] at e
    cases hf : f p d with
    | ok w d' =>
      rw [hf] at e
      simp only [] at e
      cases hl : decLoop f prev d' with
      | ok vs r' =>
        rw [hl] at e
        simp only [Res.ok.injEq] at e
        obtain ⟨rfl, _⟩ := e
        rw [allocLoop, hf, h p d w d' hf]
        simp only []
        rw [allocLoop_exact f g m h prev d' vs r' hl]
        simp
      | err e' r' => rw [hl] at e; cases e
      | panic => rw [hl] at e; cases e
    | err e' r' => rw [hf] at e; cases e
    | panic => rw [hf] at e; cases e

mutual
theorem work_exact : ∀ (t : Ty) (prev : t.Val) (ts : Tags) (d : Bytes) (v : t.Val) (r : Bytes), NoCustom t = true →
    decode (fun _ => true) t prev ts d = .ok v r → work t prev ts d = parts t v
  | .custom c, prev, ts, d, v, r, hn, h => by cases hn
  | .ptr t, prev, ts, d, v, r, hn, h => by
    have hn : NoCustom t = true := hn
    have ht := noCustom_dec hn
    have ih := fun d w r => work_exact t t.zero ts d w r hn
    rw [decode, ht] at h
    rw [work, ht]
    dsimp only at h ⊢
    cases ho : ts.optional with
    | true =>
      simp only [ho, if_true] at h ⊢
      cases hp : pop 1 d with
      | none => rw [hp] at h; cases h
      | some fr =>
        obtain ⟨flag, d'⟩ := fr
        rw [hp] at h
        dsimp only at h ⊢
        by_cases h0 : flag = [0x00]
        · rw [if_pos h0] at h
          have h01 : ¬ flag = [0x01] := by rw [h0]; decide
          cases h
          rw [if_neg h01, parts]
        · rw [if_neg h0] at h
          by_cases h1 : flag = [0x01]
          · rw [if_pos h1] at h ⊢
            obtain ⟨w, hw, hv⟩ := Res.map_ok h
            subst hv
            rw [ih _ _ _ hw, parts]
          · rw [if_neg h1] at h; cases h
    | false =>
      simp only [ho, Bool.false_eq_true, if_false] at h ⊢
      obtain ⟨w, hw, hv⟩ := Res.map_ok h
      subst hv
      rw [ih _ _ _ hw, parts]
  | .byteArr n, prev, ts, d, v, r, hn, h => by
    rw [decode] at h
    rw [work, parts]
    cases hp : pop n d with
    | none => rw [hp] at h; cases h
    | some br => rfl
  | .arr n t, prev, ts, d, v, r, hn, h => by
    rw [decode] at h
    rw [work, parts]
    cases hl : decLoop (fun p d => decode (fun _ => true) t p {} d) prev.val d with
    | ok l d' =>
      rw [hl] at h
      cases h
      rw [allocLoop_exact _ _ (parts t) (fun p d v r => work_exact t p {} d v r hn) _ _ _ _ hl]
    | err e d' => rw [hl] at h; cases h
    | panic => rw [hl] at h; cases h
  | .str, prev, ts, d, v, r, hn, h => by
    rw [decode] at h
    rw [work, parts]
    cases hr : readLen ts d with
    | ok u d' =>
      rw [hr] at h
      dsimp only at h ⊢
      cases hp : pop u d' with
      | none => rw [hp] at h; cases h
      | some br =>
        obtain ⟨b, d''⟩ := br
        rw [hp] at h
        cases h
        rw [(pop_some hp).1]
    | err e d' => rw [hr] at h; cases h
    | panic => rw [hr] at h; cases h
  | .byteSlice, prev, ts, d, v, r, hn, h => by
    rw [decode] at h
    rw [work, parts]
    cases hr : readLen ts d with
    | ok u d' =>
      rw [hr] at h
      simp only [if_true] at h ⊢
      cases hp : pop u d' with
      | none => rw [hp] at h; cases h
      | some br =>
        obtain ⟨b, d''⟩ := br
        rw [hp] at h
        cases h
        rw [(pop_some hp).1]
    | err e d' => rw [hr] at h; cases h
    | panic => rw [hr] at h; cases h
  | .slice t, prev, ts, d, v, r, hn, h => by
    rw [decode] at h
    rw [work, parts]
    cases hr : readLen ts d with
    | ok u d' =>
      rw [hr] at h
      simp only [if_true] at h ⊢
      by_cases hu : u > d'.length
      · rw [if_pos hu] at h; cases h
      · rw [if_neg hu] at h ⊢
        obtain ⟨l, hl, hv⟩ := Res.map_ok h
        subst hv
        rw [allocLoop_exact _ _ (parts t) (fun p d v r => work_exact t p {} d v r hn) _ _ _ _ hl]
    | err e d' => rw [hr] at h; cases h
    | panic => rw [hr] at h; cases h
  | .struct fs, prev, ts, d, v, r, hn, h => by
    rw [decode] at h
    rw [work, parts, workFields_exact fs prev d v r hn h]
  | .bool, prev, ts, d, v, r, hn, h => by rw [work, parts]
  | .num k, prev, ts, d, v, r, hn, h => by rw [work, parts]
  | .unsupported _ _, prev, ts, d, v, r, hn, h => by rw [work, parts]
theorem workFields_exact : ∀ (fs : Fields) (prev : fs.Val) (d : Bytes) (v : fs.Val) (r : Bytes), NoCustomFields fs = true →
    decodeFields (fun _ => true) fs prev d = .ok v r → workFields fs prev d = partsFields fs v
  | .nil, prev, d, v, r, hn, h => by rw [workFields, partsFields]
  | .cons tag t fs, prev, d, v, r, hn, h => by
    rw [NoCustomFields, Bool.and_eq_true] at hn
    rw [decodeFields] at h
    rw [workFields, partsFields]
    cases htag : fieldTags tag with
    | none => rw [htag] at h; cases h
    | some ts =>
      rw [htag] at h
      dsimp only at h ⊢
      cases hd : decode (fun _ => true) t prev.1 ts d with
      | ok w d' =>
        rw [hd] at h
        dsimp only at h ⊢
        obtain ⟨vs, hvs, hv⟩ := Res.map_ok h
        subst hv
        rw [work_exact t prev.1 ts d w d' hn.1 hd, workFields_exact fs prev.2 d' vs r hn.2 hvs]
      | err e d' => rw [hd] at h; cases h
      | panic => rw [hd] at h; cases h
end

/-- **C119.** If `Unmarshal` succeeds, it has taken exactly one step for every part of the value it returns: no more, whatever the
variable held before, and no fewer (types without custom methods). -/
theorem C119_exact (t : Ty) (ht : NoCustom t = true) (prev v : t.Val) (data rest : Bytes) (h : Unmarshal t prev data = .ok v rest) :
    unmarshalWork t prev data = parts t v := work_exact t prev {} data v rest ht h

/-- The type and the value of the examples of C29: 14 parts. -/
example : unmarshalWork exTy exTy.zero exBytes = parts exTy exVal := by
  refine C119_exact exTy rfl exTy.zero exVal exBytes [] ?_
  have := ((C29_round_trip exTy exTy_good exVal exBytes exVal_enc).2.2 exTy.zero []).1
  rwa [List.append_nil] at this

end Nimiq.Beserial
