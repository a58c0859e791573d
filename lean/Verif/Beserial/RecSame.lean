import Verif.Beserial.Rec
import Verif.Beserial.WorkExact
/-!
# C138: the two models of the package agree

`Rec` and `Model` are two transcriptions of decode.go:60-214 and encode.go:33-123: the first has types that contain themselves,
bounds the recursion and knows neither the old value nor methods, the second has values of the right type and methods. On types
without names and methods they are the same function.
-/
namespace Nimiq.Beserial.Rec

mutual
/-- A type of `Model` as a type of `Rec`. -/
def ofTy : Ty → GTy
  | .num k => .num k
  | .bool => .bool
  | .str => .str
  | .byteArr n => .byteArr false n
  | .byteSlice => .byteSlice
  | .arr n t => .arr n (ofTy t)
  | .slice t => .slice (ofTy t)
  | .ptr t => .ptr (ofTy t)
  | .struct fs => .struct (ofFields fs)
  | .custom _ => .other
  | .unsupported _ _ => .other
def ofFields : Fields → GFields
  | .nil => .nil
  | .cons tag t fs => .cons true tag (ofTy t) (ofFields fs)
end

mutual
/-- A value of `Model` as a value of `Rec`. -/
def ofVal : (t : Ty) → t.Val → Val
  | .num k, v => .num (getBE (putNum k v))
  | .bool, v => .bool v
  | .str, v => .bytes v
  | .byteArr _, v => .bytes v.val
  | .byteSlice, v => .bytes v
  | .arr _ t, v => .seq (v.val.map (ofVal t))
  | .slice t, v => .seq (v.map (ofVal t))
  | .ptr t, v => match v with
    | none => .nil
    | some x => .ref (ofVal t x)
  | .struct fs, v => .seq (ofFieldVals fs v)
  | .custom _, _ => .nil
  | .unsupported _ _, _ => .nil
def ofFieldVals : (fs : Fields) → fs.Val → List Val
  | .nil, _ => []
  | .cons _ t fs, v => ofVal t v.1 :: ofFieldVals fs v.2
end

theorem size_ge (t : GTy) : 1 ≤ t.size := by cases t <;> simp [GTy.size]

theorem elems_same {α} {g : α → Bytes → Res α} {f : Bytes → Option (Res Val)} {m : α → Val}
    (hfg : ∀ p d, f d = some ((g p d).map m)) : ∀ (prev : List α) (n : Nat) (_ : prev.length = n) (d : Bytes),
    elems f n d = some ((decLoop g prev d).map fun l => l.val.map m)
  | [], 0, _, d => rfl
  | p :: prev, n + 1, hn, d => by
    rw [elems, hfg p d, decLoop]
    cases g p d with
    | ok v d =>
      simp only [Res.map]
      rw [elems_same hfg prev n (by simpa using hn) d]
      cases decLoop g prev d <;> rfl
    | err e d => rfl
    | panic => rfl

mutual
theorem value_same (env : Env) : ∀ (t : Ty), NoCustom t = true → ∀ (f : Nat), (ofTy t).size ≤ f → ∀ (prev : t.Val) (ts : Tags) (d : Bytes),
    value env f false (ofTy t) ts d = some ((decode noLimit t prev ts d).map (ofVal t))
  | t, hn, 0, hf => by have := size_ge (ofTy t); omega
  | .num k, hn, f + 1, hf => by
    intro prev ts d
    simp only [ofTy, value, decode]
    cases hp : pop k.size d with
    | none => rfl
    | some x =>
      obtain ⟨b, r⟩ := x
      simp only [set, Res.map, ofVal]
      rw [putNum_getNum k _ (pop_some hp).1]
      rfl
  | .bool, hn, f + 1, hf => by
    intro prev ts d
    simp only [ofTy, value, decode]
    cases pop 1 d with
    | none => rfl
    | some x =>
      obtain ⟨b, d⟩ := x
      dsimp only
      split
      · rfl
      · split <;> rfl
  | .str, hn, f + 1, hf => by
    intro prev ts d
    simp only [ofTy, value, decode]
    cases readLen ts d with
    | ok u d => dsimp only; cases pop u d <;> rfl
    | err e d => rfl
    | panic => rfl
  | .byteSlice, hn, f + 1, hf => by
    intro prev ts d
    simp only [ofTy, value, decode]
    cases readLen ts d with
    | ok u d => dsimp only; cases pop u d <;> rfl
    | err e d => rfl
    | panic => rfl
  | .byteArr n, hn, f + 1, hf => by
    intro prev ts d
    simp only [ofTy, value, decode]
    cases hp : pop n d with
    | none => rfl
    | some x =>
      obtain ⟨b, r⟩ := x
      have hl := (pop_some hp).1
      simp [set, Res.map, ofVal, BArr.copy, hl, List.take_of_length_le (Nat.le_of_eq hl)]
  | .arr n t, hn, f + 1, hf => by
    intro prev ts d
    have hf : (ofTy t).size ≤ f := by simp only [ofTy, GTy.size] at hf; omega
    simp only [ofTy, value, decode]
    have := elems_same (m := ofVal t) (fun p d => value_same env t hn f hf p {} d) prev.val n prev.property d
    rw [this]
    cases decLoop (fun p d => decode noLimit t p {} d) prev.val d <;> rfl
  | .slice t, hn, f + 1, hf => by
    intro prev ts d
    have hf : (ofTy t).size ≤ f := by simp only [ofTy, GTy.size] at hf; omega
    simp only [ofTy, value, decode]
    cases readLen ts d with
    | ok u d =>
      dsimp only
      split
      · rfl
      · have := elems_same (m := ofVal t) (fun p d => value_same env t hn f hf p {} d) (List.replicate u t.zero) u (by simp) d
        rw [if_neg (by decide), this, if_pos (by rfl)]
        cases decLoop (fun p d => decode noLimit t p {} d) (List.replicate u t.zero) d <;> rfl
    | err e d => rfl
    | panic => rfl
  | .ptr t, hn, f + 1, hf => by
    intro prev ts d
    have hf : (ofTy t).size ≤ f := by simp only [ofTy, GTy.size] at hf; omega
    have hc : t.customDec = none := by
      cases t <;> first | rfl | (simp [NoCustom] at hn)
    have ih := fun d => value_same env t hn f hf t.zero ts d
    simp only [ofTy, value, decode, hc]
    cases ts.optional with
    | false =>
      rw [if_neg (by decide), if_neg (by decide), if_neg (by decide), ih]
      cases decode noLimit t t.zero ts d <;> rfl
    | true =>
      rw [if_pos rfl, if_pos rfl]
      cases pop 1 d with
      | none => rfl
      | some x =>
        obtain ⟨b, d⟩ := x
        dsimp only
        split
        · rfl
        · split
          · rw [if_neg (by decide), ih]
            cases decode noLimit t t.zero ts d <;> rfl
          · rfl
  | .struct fs, hn, f + 1, hf => by
    intro prev ts d
    have hf : (ofFields fs).size ≤ f := by simp only [ofTy, GTy.size] at hf; omega
    simp only [ofTy, value, decode]
    rw [fields_same env fs hn f hf prev d]
    cases decodeFields noLimit fs prev d <;> rfl
  | .unsupported _ _, hn, f + 1, hf => by
    intro prev ts d
    rfl
  | .custom _, hn, f + 1, hf => by simp [NoCustom] at hn
theorem fields_same (env : Env) : ∀ (fs : Fields), NoCustomFields fs = true → ∀ (f : Nat), (ofFields fs).size ≤ f → ∀ (prev : fs.Val) (d : Bytes),
    fields (value env f) false (ofFields fs) d = some ((decodeFields noLimit fs prev d).map (ofFieldVals fs))
  | .nil, hn, f, hf => by
    intro prev d
    rfl
  | .cons tag t fs, hn, f, hf => by
    intro prev d
    rw [NoCustomFields, Bool.and_eq_true] at hn
    simp only [ofFields, GFields.size] at hf
    simp only [ofFields, fields, decodeFields]
    cases fieldTags tag with
    | none => rfl
    | some ts =>
      simp only [Bool.not_true, Bool.or_false]
      rw [value_same env t hn.1 f (by omega) prev.1 ts d]
      cases decode noLimit t prev.1 ts d with
      | ok v d =>
        simp only [Res.map]
        rw [fields_same env fs hn.2 f (by omega) prev.2 d]
        cases decodeFields noLimit fs prev.2 d <;> rfl
      | err e d => rfl
      | panic => rfl
end

theorem putElems_same {α} {m : α → Val} {h : Nat → HVal} {g : α → Bytes → Out Bytes} {f : HVal → Bytes → Option (Out Bytes)}
    (hfg : ∀ x v, Repr h x (m v) → ∀ b, f x b = some (g v b)) : ∀ (vs : List α) (xs : List HVal), Repr h (.seq xs) (.seq (vs.map m)) →
    ∀ b, putElems f xs b = some (vs.foldlM (fun b v => g v b) b)
  | [], _, .seqNil, b => rfl
  | v :: vs, _, .seqCons x xs _ _ hv hs, b => by
    rw [putElems, hfg x v hv b, List.foldlM_cons]
    cases g v b with
    | ok b => exact putElems_same hfg vs xs hs b
    | err e => rfl
    | panic => rfl

mutual
theorem marshal_same (env : Env) (h : Nat → HVal) : ∀ (t : Ty), NoCustom t = true → ∀ (f : Nat), (ofTy t).size ≤ f →
    ∀ (x : HVal) (v : t.Val), Repr h x (ofVal t v) → ∀ (b : Bytes) (ts : Tags),
    marshal env h f (ofTy t) x b ts = some (Beserial.marshal t v b ts)
  | t, hn, 0, hf => by have := size_ge (ofTy t); omega
  | .num k, hn, f + 1, hf => by
    intro x v hr b ts
    cases hr
    simp only [ofTy, marshal, Beserial.marshal]
    rw [putBE_getBE' (putNum_length k v)]
  | .bool, hn, f + 1, hf => by
    intro x v hr b ts
    cases hr
    rfl
  | .str, hn, f + 1, hf => by
    intro x v hr b ts
    cases hr
    simp only [ofTy, marshal, Beserial.marshal]
    cases ts.lenTag <;> rfl
  | .byteSlice, hn, f + 1, hf => by
    intro x v hr b ts
    cases hr
    simp only [ofTy, marshal, Beserial.marshal]
    cases ts.lenTag <;> rfl
  | .byteArr n, hn, f + 1, hf => by
    intro x v hr b ts
    cases hr
    rfl
  | .arr n t, hn, f + 1, hf => by
    intro x v hr b ts
    have hf : (ofTy t).size ≤ f := by simp only [ofTy, GTy.size] at hf; omega
    rw [ofVal] at hr
    obtain ⟨xs, rfl⟩ : ∃ xs, x = .seq xs := by
      cases hv : v.val.map (ofVal t) <;> rw [hv] at hr <;> cases hr <;> exact ⟨_, rfl⟩
    simp only [ofTy, marshal, Beserial.marshal]
    exact putElems_same (fun x v hr b => marshal_same env h t hn f hf x v hr b {}) v.val xs hr b
  | .slice t, hn, f + 1, hf => by
    intro x v hr b ts
    have hf : (ofTy t).size ≤ f := by simp only [ofTy, GTy.size] at hf; omega
    rw [ofVal] at hr
    obtain ⟨xs, rfl⟩ : ∃ xs, x = .seq xs := by
      cases hv : v.map (ofVal t) <;> rw [hv] at hr <;> cases hr <;> exact ⟨_, rfl⟩
    simp only [ofTy, marshal, Beserial.marshal]
    cases ts.lenTag with
    | none => rfl
    | some k =>
      have hl : xs.length = v.length := by rw [repr_length hr, List.length_map]
      simp only [hl]
      exact putElems_same (fun x v hr b => marshal_same env h t hn f hf x v hr b {}) v xs hr _
  | .ptr t, hn, f + 1, hf => by
    intro x v hr b ts
    have hf : (ofTy t).size ≤ f := by simp only [ofTy, GTy.size] at hf; omega
    have hc : t.customEnc = none := by
      cases t <;> first | rfl | (simp [NoCustom] at hn)
    cases v with
    | none =>
      rw [ofVal] at hr
      cases hr
      simp only [ofTy, marshal, Beserial.marshal, hc]
    | some v =>
      rw [ofVal] at hr
      cases hr with
      | ref p _ hv =>
        simp only [ofTy, marshal, Beserial.marshal, hc]
        rw [marshal_same env h t hn f hf (h p) v hv _ ts]
        cases Beserial.marshal t v (if ts.optional = true then b ++ [0x01] else b) ts <;> rfl
  | .struct fs, hn, f + 1, hf => by
    intro x v hr b ts
    have hf : (ofFields fs).size ≤ f := by simp only [ofTy, GTy.size] at hf; omega
    rw [ofVal] at hr
    obtain ⟨xs, rfl⟩ : ∃ xs, x = .seq xs := by
      cases hv : ofFieldVals fs v <;> rw [hv] at hr <;> cases hr <;> exact ⟨_, rfl⟩
    simp only [ofTy, marshal, Beserial.marshal]
    exact putFields_same env h fs hn f hf xs v hr b
  | .unsupported _ _, hn, f + 1, hf => by
    intro x v hr b ts
    cases hr
    rfl
  | .custom _, hn, f + 1, hf => by simp [NoCustom] at hn
theorem putFields_same (env : Env) (h : Nat → HVal) : ∀ (fs : Fields), NoCustomFields fs = true → ∀ (f : Nat), (ofFields fs).size ≤ f →
    ∀ (xs : List HVal) (v : fs.Val), Repr h (.seq xs) (.seq (ofFieldVals fs v)) → ∀ (b : Bytes),
    putFields (marshal env h f) (ofFields fs) xs b = some (marshalFields fs v b)
  | .nil, hn, f, hf => by
    intro xs v hr b
    rfl
  | .cons tag t fs, hn, f, hf => by
    intro xs v hr b
    rw [NoCustomFields, Bool.and_eq_true] at hn
    simp only [ofFields, GFields.size] at hf
    rw [ofFieldVals] at hr
    cases hr with
    | seqCons x xs _ _ hv hs =>
    simp only [ofFields, putFields, marshalFields]
    cases fieldTags tag with
    | none => rfl
    | some ts =>
      dsimp only
      rw [marshal_same env h t hn.1 f (by omega) x v.1 hv b ts]
      cases Beserial.marshal t v.1 b ts with
      | ok b => exact putFields_same env h fs hn.2 f (by omega) xs v.2 hs b
      | err e => rfl
      | panic => rfl
end

mutual
/-- All kinds in the type are known to the package, none has methods. -/
def Known : Ty → Bool
  | .custom _ | .unsupported _ _ => false
  | .arr _ t | .slice t | .ptr t => Known t
  | .struct fs => KnownFields fs
  | .num _ | .bool | .str | .byteArr _ | .byteSlice => true
def KnownFields : Fields → Bool
  | .nil => true
  | .cons _ t fs => Known t && KnownFields fs
end

theorem map_inj {α β} {f : α → β} (hf : ∀ v w, f v = f w → v = w) : ∀ (vs ws : List α), vs.map f = ws.map f → vs = ws
  | [], [], _ => rfl
  | v :: vs, w :: ws, h => by
    simp only [List.map_cons, List.cons.injEq] at h
    rw [hf v w h.1, map_inj hf vs ws h.2]

mutual
theorem ofVal_inj : ∀ (t : Ty), Known t = true → ∀ (v w : t.Val), ofVal t v = ofVal t w → v = w
  | .num k, hn, v, w, h => by
    simp only [ofVal, Val.num.injEq] at h
    have h1 : putNum k v = putNum k w := by
      rw [← putBE_getBE' (putNum_length k v), ← putBE_getBE' (putNum_length k w), h]
    have h2 := congrArg (getNum k) h1
    rwa [getNum_putNum, getNum_putNum] at h2
  | .bool, hn, v, w, h => by simpa [ofVal] using h
  | .str, hn, v, w, h => by simpa [ofVal] using h
  | .byteSlice, hn, v, w, h => by simpa [ofVal] using h
  | .byteArr n, hn, v, w, h => by
    simp only [ofVal, Val.bytes.injEq] at h
    exact Subtype.ext h
  | .arr n t, hn, v, w, h => by
    simp only [ofVal, Val.seq.injEq] at h
    exact Subtype.ext (map_inj (ofVal_inj t hn) _ _ h)
  | .slice t, hn, v, w, h => by
    simp only [ofVal, Val.seq.injEq] at h
    exact map_inj (ofVal_inj t hn) _ _ h
  | .ptr t, hn, v, w, h => by
    cases v <;> cases w <;> simp only [ofVal] at h
    · rfl
    · cases h
    · cases h
    · simp only [Val.ref.injEq] at h
      rw [ofVal_inj t hn _ _ h]
  | .struct fs, hn, v, w, h => by
    simp only [ofVal, Val.seq.injEq] at h
    exact ofFieldVals_inj fs hn v w h
  | .custom _, hn, v, w, h => by simp [Known] at hn
  | .unsupported _ _, hn, v, w, h => by simp [Known] at hn
theorem ofFieldVals_inj : ∀ (fs : Fields), KnownFields fs = true → ∀ (v w : fs.Val), ofFieldVals fs v = ofFieldVals fs w → v = w
  | .nil, hn, v, w, h => rfl
  | .cons _ t fs, hn, v, w, h => by
    rw [KnownFields, Bool.and_eq_true] at hn
    simp only [ofFieldVals, List.cons.injEq] at h
    exact Prod.ext (ofVal_inj t hn.1 _ _ h.1) (ofFieldVals_inj fs hn.2 _ _ h.2)
end

/-- C138. The two models' values are the same: no two values of a type become one. -/
theorem C138_same_values (t : Ty) (ht : Known t = true) (v w : t.Val) (h : ofVal t v = ofVal t w) : v = w := ofVal_inj t ht v w h

/-- C138. Without names and methods the decoder is the one of the other properties, whatever the declarations are, with a bound on
the depth that is the length of the type, whatever the old value was, and for every input: values, errors, unread data, panics. -/
theorem C138_same_decoder (env : Env) (t : Ty) (ht : NoCustom t = true) (prev : t.Val) (ts : Tags) (d : Bytes) :
    value env (ofTy t).size false (ofTy t) ts d = some ((decode noLimit t prev ts d).map (ofVal t)) :=
  value_same env t ht _ (Nat.le_refl _) prev ts d

/-- C138. Without names and methods the encoder is the one of the other properties, for every memory with the value in it. -/
theorem C138_same_encoder (env : Env) (h : Nat → HVal) (t : Ty) (ht : NoCustom t = true) (x : HVal) (v : t.Val) (hr : Repr h x (ofVal t v))
    (b : Bytes) (ts : Tags) : marshal env h (ofTy t).size (ofTy t) x b ts = some (Beserial.marshal t v b ts) :=
  marshal_same env h t ht _ (Nat.le_refl _) x v hr b ts

/-- `struct { A uint16; P *int8 "optional"; B []uint32 "len_tag=uint8" }` -/
def sampleTy : Ty := .struct (.cons none (.num .u16) (.cons (some sOptional) (.ptr (.num .i8)) (.cons (some (sLenTag ++ sUint8))
  (.slice (.num .u32)) .nil)))

example : NoCustom sampleTy = true ∧ Known sampleTy = true := ⟨rfl, rfl⟩

example (env : Env) : value env 6 false (ofTy sampleTy) {} [1, 2, 1, 255, 1, 0, 0, 1, 0, 9] =
    some (.ok (.seq [.num 258, .ref (.num 255), .seq [.num 256]]) [9]) := by
  have h := value_same env sampleTy rfl 6 (by decide) sampleTy.zero {} [1, 2, 1, 255, 1, 0, 0, 1, 0, 9]
  rw [h]
  rfl

/-- The same value in memory: the pointer's target is cell 5. -/
example : Repr (fun p => if p = 5 then .num 255 else .nil) (.seq [.num 258, .ref 5, .seq [.num 256]])
    (ofVal sampleTy ((258 : UInt16), some (-1 : Int8), [(256 : UInt32)], ())) :=
  .seqCons _ _ _ _ (.num _) (.seqCons _ _ _ _ (.ref 5 _ (.num _)) (.seqCons _ _ _ _ (.seqCons _ _ _ _ (.num _) .seqNil) .seqNil))

end Nimiq.Beserial.Rec
