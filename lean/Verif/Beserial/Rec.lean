import Verif.Beserial.More
/-!
# C138: types that contain themselves, and other types a program can declare

`Ty` (Model.lean) has all types of the repository. The package takes any type a program declares, so this file has declared
types that may refer to themselves and each other, arrays of declared byte types and unexported fields, all without methods of
their own. Values to be encoded are graphs of memory cells, values that were decoded are trees.
-/
namespace Nimiq.Beserial.Rec
open Spec

mutual
/-- Go types. -/
inductive GTy where
  | num (k : NumKind)
  | bool
  | str
  /-- `[n]uint8`; if `own`, `[n]T` for a declared `type T uint8` -/
  | byteArr (own : Bool) (n : Nat)
  /-- `[]uint8`, `[]T` -/
  | byteSlice
  | arr (n : Nat) (t : GTy)
  | slice (t : GTy)
  | ptr (t : GTy)
  | struct (fs : GFields)
  /-- a declared type; what it stands for is in the environment -/
  | name (x : Nat)
  /-- all kinds the package does not know -/
  | other
/-- Struct fields: whether it is exported, the beserial tag if there is one, and the type. -/
inductive GFields where
  | nil
  | cons (exported : Bool) (tag : Option (List Char)) (t : GTy) (fs : GFields)
end

/-- `type x …` -/
abbrev Env := Nat → GTy

/-- Values that were decoded. Numbers of all kinds are the bits they are written with. -/
inductive Val where
  | num (x : Nat)
  | bool (b : Bool)
  | bytes (s : Bytes)
  | nil
  | ref (v : Val)
  | seq (vs : List Val)

/-! ## Unmarshal -/

/-- `d.value(v.Index(i), tags{})` for all elements -/
def elems (f : Bytes → Option (Res Val)) : Nat → Bytes → Option (Res (List Val))
  | 0, d => some (.ok [] d)
  | n + 1, d =>
    match f d with
    | none => none
    | some (.ok v d) =>
      match elems f n d with
      | none => none
      | some r => some (r.map (v :: ·))
    | some (.err e d) => some (.err e d)
    | some .panic => some .panic

/-- decode.go:170-185: the fields of a struct. A field of a struct that cannot be set cannot be set either. -/
def fields (f : Bool → GTy → Tags → Bytes → Option (Res Val)) (ro : Bool) : GFields → Bytes → Option (Res (List Val))
  | .nil, d => some (.ok [] d)
  | .cons exported tag t fs, d =>
    match fieldTags tag with
    | none => some .panic
    | some ts =>
      match f (ro || !exported) t ts d with
      | none => none
      | some (.ok v d) =>
        match fields f ro fs d with
        | none => none
        | some r => some (r.map (v :: ·))
      | some (.err e d) => some (.err e d)
      | some .panic => some .panic

/-- `v.Set…(x)` panics if `v` was reached through an unexported field (`flagRO`). -/
def set (ro : Bool) (v : Val) (d : Bytes) : Res Val := if ro then .panic else .ok v d

/-- decode.go:60-214 `value`, with a bound on the depth of the recursion (`none`: exceeded). -/
def value (env : Env) : Nat → Bool → GTy → Tags → Bytes → Option (Res Val)
  | 0, _, _, _, _ => none
  | f + 1, ro, .name x, ts, d => value env f ro (env x) ts d
  | f + 1, ro, .ptr t, ts, d =>
    if ts.optional then
      match pop 1 d with
      | none => some (.err .eof d)
      | some (flag, d) =>
        if flag = [0x00] then some (set ro .nil d)
        else if flag = [0x01] then
          if ro then some .panic else (value env f false t ts d).map (Res.map .ref)
        else some (.err .badOptional d)
    else if ro then some .panic else (value env f false t ts d).map (Res.map .ref)
  | _ + 1, ro, .byteArr own n, _, d =>
    match pop n d with
    | none => some (.err .eof d)
    -- reflect.Copy: the element types must be the same, and the destination assignable
    | some (b, d) => if own then some .panic else some (set ro (.bytes b) d)
  | f + 1, ro, .arr n t, _, d => (elems (value env f ro t {}) n d).map (Res.map .seq)
  | _ + 1, ro, .str, ts, d =>
    match readLen ts d with
    | .ok u d =>
      match pop u d with
      | none => some (.err .eof d)
      | some (b, d) => some (set ro (.bytes b) d)
    | .err e d => some (.err e d)
    | .panic => some .panic
  | _ + 1, ro, .byteSlice, ts, d =>
    match readLen ts d with
    | .ok u d =>
      match pop u d with
      | none => some (.err .eof d)
      | some (b, d) => some (set ro (.bytes b) d)
    | .err e d => some (.err e d)
    | .panic => some .panic
  | f + 1, ro, .slice t, ts, d =>
    match readLen ts d with
    | .ok u d =>
      if u > d.length then some (.err .tooLargeAlloc d)
      else if ro then some .panic
      else (elems (value env f false t {}) u d).map (Res.map .seq)
    | .err e d => some (.err e d)
    | .panic => some .panic
  | f + 1, ro, .struct fs, _, d => (fields (value env f) ro fs d).map (Res.map .seq)
  | _ + 1, ro, .bool, _, d =>
    match pop 1 d with
    | none => some (.err .eof d)
    | some (b, d) =>
      if b = [0] then some (set ro (.bool false) d)
      else if b = [1] then some (set ro (.bool true) d)
      else some (.err .badBool d)
  | _ + 1, ro, .num k, _, d =>
    match pop k.size d with
    | none => some (.err .eof d)
    | some (b, d) => some (set ro (.num (getBE b)) d)
  | _ + 1, _, .other, _, d => some (.err .cannotMarshal d)

/-! ## Marshal -/

/-- Values to be encoded: pointers are addresses of memory cells, so a value may be reached from itself. -/
inductive HVal where
  | num (x : Nat)
  | bool (b : Bool)
  | bytes (s : Bytes)
  | nil
  | ref (p : Nat)
  | seq (vs : List HVal)

/-- `marshal(v.Index(i), b, tags{})` for all elements -/
def putElems (f : HVal → Bytes → Option (Out Bytes)) : List HVal → Bytes → Option (Out Bytes)
  | [], b => some (.ok b)
  | v :: vs, b =>
    match f v b with
    | some (.ok b) => putElems f vs b
    | r => r

/-- encode.go:89-102: the fields of a struct -/
def putFields (f : GTy → HVal → Bytes → Tags → Option (Out Bytes)) : GFields → List HVal → Bytes → Option (Out Bytes)
  | .cons _ tag t fs, v :: vs, b =>
    match fieldTags tag with
    | none => some .panic
    | some ts =>
      match f t v b ts with
      | some (.ok b) => putFields f fs vs b
      | r => r
  | _, _, b => some (.ok b)

/-- encode.go:33-123 `marshal`, with a bound on the depth of the recursion. Reading needs no exported fields. The last case is
values that do not belong to the type. -/
def marshal (env : Env) (h : Nat → HVal) : Nat → GTy → HVal → Bytes → Tags → Option (Out Bytes)
  | 0, _, _, _, _ => none
  | f + 1, .name x, v, b, ts => marshal env h f (env x) v b ts
  | _ + 1, .ptr _, .nil, b, ts => some (if ts.optional then .ok (b ++ [0x00]) else .err .nonOptionalNil)
  | f + 1, .ptr t, .ref p, b, ts =>
    match marshal env h f t (h p) (if ts.optional then b ++ [0x01] else b) ts with
    | none => none
    | some (.ok b) => some (.ok b)
    | some (.err _) => some (.ok [])
    | some .panic => some .panic
  | _ + 1, .byteArr _ _, .bytes s, b, _ => some (.ok (b ++ s))
  | f + 1, .arr _ t, .seq vs, b, _ => putElems (fun v b => marshal env h f t v b {}) vs b
  | _ + 1, .str, .bytes s, b, ts =>
    match ts.lenTag with
    | none => some (.err .noLenTag)
    | some k => some (.ok (b ++ putLen k s.length ++ s))
  | _ + 1, .byteSlice, .bytes s, b, ts =>
    match ts.lenTag with
    | none => some (.err .noLenTag)
    | some k => some (.ok (b ++ putLen k s.length ++ s))
  | f + 1, .slice t, .seq vs, b, ts =>
    match ts.lenTag with
    | none => some (.err .noLenTag)
    | some k => putElems (fun v b => marshal env h f t v b {}) vs (b ++ putLen k vs.length)
  | f + 1, .struct fs, .seq vs, b, _ => putFields (marshal env h f) fs vs b
  | _ + 1, .bool, .bool v, b, _ => some (.ok (b ++ [if v then 0x01 else 0x00]))
  | _ + 1, .num k, .num x, b, _ => some (.ok (b ++ putBE k.size x))
  | _ + 1, _, _, _, _ => some (.err .cannotMarshal)

/-! ## Specification -/

mutual
/-- `Enc env t ts v s`: the bytes of the value `v` of type `t` under the tags `ts` are `s`. -/
inductive Enc (env : Env) : GTy → Tags → Val → Bytes → Prop where
  | num (k) (ts) (x : Nat) (hx : x < 256 ^ numBytes k) : Enc env (.num k) ts (.num x) (digits (numBytes k) x)
  | bool (ts) (b : Bool) : Enc env .bool ts (.bool b) [if b then 1 else 0]
  | str (ts p) (s : Bytes) (hp : len ts s.length = some p) : Enc env .str ts (.bytes s) (p ++ s)
  | byteSlice (ts p) (s : Bytes) (hp : len ts s.length = some p) : Enc env .byteSlice ts (.bytes s) (p ++ s)
  | byteArr (own n ts) (s : Bytes) (hn : s.length = n) : Enc env (.byteArr own n) ts (.bytes s) s
  | arr (n t ts vs s) (h : EncAll env t vs s) (hn : vs.length = n) : Enc env (.arr n t) ts (.seq vs) s
  | slice (t ts p vs s) (hp : len ts vs.length = some p) (h : EncAll env t vs s) : Enc env (.slice t) ts (.seq vs) (p ++ s)
  | absent (t) (ts : Tags) (h : ts.optional = true) : Enc env (.ptr t) ts .nil [0]
  | present (t) (ts : Tags) (v s) (h : ts.optional = true) (hv : Enc env t ts v s) : Enc env (.ptr t) ts (.ref v) (1 :: s)
  | ptr (t) (ts : Tags) (v s) (h : ts.optional = false) (hv : Enc env t ts v s) : Enc env (.ptr t) ts (.ref v) s
  | struct (fs ts vs s) (h : EncFields env fs vs s) : Enc env (.struct fs) ts (.seq vs) s
  | name (x ts v s) (h : Enc env (env x) ts v s) : Enc env (.name x) ts v s
/-- One after the other. -/
inductive EncAll (env : Env) : GTy → List Val → Bytes → Prop where
  | nil (t) : EncAll env t [] []
  | cons (t v vs s r) (h : Enc env t {} v s) (hs : EncAll env t vs r) : EncAll env t (v :: vs) (s ++ r)
/-- Field by field. -/
inductive EncFields (env : Env) : GFields → List Val → Bytes → Prop where
  | nil : EncFields env .nil [] []
  | cons (e tag t fs ts v vs s r) (ht : fieldTags tag = some ts) (h : Enc env t ts v s) (hs : EncFields env fs vs r) :
      EncFields env (.cons e tag t fs) (v :: vs) (s ++ r)
end

mutual
/-- A type without the two things `Unmarshal` panics on, whose tags can be parsed, and whose slices have elements that are not
empty on the wire. -/
def GTy.Fine (env : Env) : GTy → Prop
  | .byteArr own _ => own = false
  | .arr _ t => t.Fine env
  | .slice t => t.Fine env ∧ ∀ v s, Enc env t {} v s → s ≠ []
  | .ptr t => t.Fine env
  | .struct fs => fs.Fine env
  | _ => True
def GFields.Fine (env : Env) : GFields → Prop
  | .nil => True
  | .cons e tag t fs => e = true ∧ (fieldTags tag).isSome ∧ t.Fine env ∧ fs.Fine env
end

mutual
/-- `P` holds of every declared type that a value of this type cannot do without. -/
def GTy.Needs (P : Nat → Tags → Prop) : GTy → Tags → Prop
  | .arr n t, _ => 0 < n → t.Needs P {}
  | .ptr t, ts => ts.optional = false → t.Needs P ts
  | .struct fs, _ => fs.Needs P
  | .name x, ts => P x ts
  | _, _ => True
def GFields.Needs (P : Nat → Tags → Prop) : GFields → Prop
  | .nil => True
  | .cons _ tag t fs => (∀ ts, fieldTags tag = some ts → t.Needs P ts) ∧ fs.Needs P
end

mutual
/-- A value of this type contains one of a declared type of which `P` holds. -/
def GTy.Contains (P : Nat → Tags → Prop) : GTy → Tags → Prop
  | .arr n t, _ => 0 < n ∧ t.Contains P {}
  | .ptr t, ts => ts.optional = false ∧ t.Contains P ts
  | .struct fs, _ => fs.Contains P
  | .name x, ts => P x ts
  | _, _ => False
def GFields.Contains (P : Nat → Tags → Prop) : GFields → Prop
  | .nil => False
  | .cons _ tag t fs => (∃ ts, fieldTags tag = some ts ∧ t.Contains P ts) ∨ fs.Contains P
end

mutual
/-- Length of the type's text. -/
def GTy.size : GTy → Nat
  | .arr _ t => t.size + 1
  | .slice t => t.size + 1
  | .ptr t => t.size + 1
  | .struct fs => fs.size + 1
  | _ => 1
def GFields.size : GFields → Nat
  | .nil => 0
  | .cons _ _ t fs => t.size + fs.size
end

/-- The value that is found in memory. -/
inductive Repr (h : Nat → HVal) : HVal → Val → Prop where
  | num (x) : Repr h (.num x) (.num x)
  | bool (b) : Repr h (.bool b) (.bool b)
  | bytes (s) : Repr h (.bytes s) (.bytes s)
  | nil : Repr h .nil .nil
  | ref (p v) (hv : Repr h (h p) v) : Repr h (.ref p) (.ref v)
  | seqNil : Repr h (.seq []) (.seq [])
  | seqCons (x xs v vs) (hv : Repr h x v) (hs : Repr h (.seq xs) (.seq vs)) : Repr h (.seq (x :: xs)) (.seq (v :: vs))

/-! ## More fuel -/

theorem elems_mono {f g : Bytes → Option (Res Val)} (hfg : ∀ d r, f d = some r → g d = some r) :
    ∀ (n : Nat) (d : Bytes) (r), elems f n d = some r → elems g n d = some r := by
  intro n
  induction n with
  | zero => intro d r h; exact h
  | succ n ih =>
    intro d r h
    rw [elems] at h ⊢
    cases hf : f d with
    | none => rw [hf] at h; cases h
    | some x =>
      rw [hf] at h
      rw [hfg _ _ hf]
      cases x with
      | ok v d' =>
        dsimp only at h ⊢
        cases he : elems f n d' with
        | none => rw [he] at h; cases h
        | some y => rw [he] at h; rw [ih _ _ he]; exact h
      | err e d' => exact h
      | panic => exact h

theorem fields_mono {f g : Bool → GTy → Tags → Bytes → Option (Res Val)}
    (hfg : ∀ ro t ts d r, f ro t ts d = some r → g ro t ts d = some r) (ro : Bool) :
    ∀ (fs : GFields) (d : Bytes) (r), fields f ro fs d = some r → fields g ro fs d = some r
  | .nil, d, r, h => h
  | .cons e tag t fs, d, r, h => by
    rw [fields] at h ⊢
    cases ht : fieldTags tag with
    | none => rw [ht] at h; exact h
    | some ts =>
      rw [ht] at h
      dsimp only at h ⊢
      cases hf : f (ro || !e) t ts d with
      | none => rw [hf] at h; cases h
      | some x =>
        rw [hf] at h
        rw [hfg _ _ _ _ _ hf]
        cases x with
        | ok v d' =>
          dsimp only at h ⊢
          cases he : fields f ro fs d' with
          | none => rw [he] at h; cases h
          | some y => rw [he] at h; rw [fields_mono hfg ro fs _ _ he]; exact h
        | err e d' => exact h
        | panic => exact h

theorem map_mono {α β} {x y : Option α} {f : α → β} {r : β} (hxy : ∀ r, x = some r → y = some r) (h : x.map f = some r) : y.map f = some r := by
  cases x with
  | none => cases h
  | some a => rw [hxy a rfl]; exact h

theorem value_succ (env : Env) : ∀ (f : Nat) (ro t ts d r), value env f ro t ts d = some r → value env (f + 1) ro t ts d = some r := by
  intro f
  induction f with
  | zero => intro ro t ts d r h; cases h
  | succ f ih =>
    intro ro t ts d r h
    cases t with
    | name x => exact ih _ _ _ _ _ h
    | ptr t =>
      rw [value] at h ⊢
      split at h
      · rw [if_pos (by assumption)]
        cases hp : pop 1 d with
        | none => rw [hp] at h; exact h
        | some x =>
          rw [hp] at h
          dsimp only at h ⊢
          split at h
          · rw [if_pos (by assumption)]; exact h
          · rw [if_neg (by assumption)]
            split at h
            · rw [if_pos (by assumption)]
              split at h
              · rw [if_pos (by assumption)]; exact h
              · rw [if_neg (by assumption)]
                exact map_mono (fun r => ih _ _ _ _ r) h
            · rw [if_neg (by assumption)]; exact h
      · rw [if_neg (by assumption)]
        split at h
        · rw [if_pos (by assumption)]; exact h
        · rw [if_neg (by assumption)]
          exact map_mono (fun r => ih _ _ _ _ r) h
    | arr n t =>
      rw [value] at h ⊢
      exact map_mono (fun r => elems_mono (fun d r => ih _ _ _ d r) _ _ r) h
    | struct fs =>
      rw [value] at h ⊢
      exact map_mono (fun r => fields_mono (fun ro t ts d r => ih ro t ts d r) _ _ _ r) h
    | slice t =>
      rw [value] at h ⊢
      cases hl : readLen ts d with
      | panic => rw [hl] at h; exact h
      | err e d' => rw [hl] at h; exact h
      | ok u d' =>
        rw [hl] at h
        dsimp only at h ⊢
        split at h
        · rw [if_pos (by assumption)]; exact h
        · rw [if_neg (by assumption)]
          split at h
          · rw [if_pos (by assumption)]; exact h
          · rw [if_neg (by assumption)]
            exact map_mono (fun r => elems_mono (fun d r => ih _ _ _ d r) _ _ r) h
    | _ => exact h

theorem value_mono {env : Env} {f g : Nat} (hfg : f ≤ g) {ro t ts d r} (h : value env f ro t ts d = some r) : value env g ro t ts d = some r := by
  induction hfg with
  | refl => exact h
  | step _ ih => exact value_succ env _ _ _ _ _ _ ih

/-! ## What was decoded has these bytes -/

theorem elems_enc {env : Env} {t : GTy} {f : Bytes → Option (Res Val)}
    (hf : ∀ d v rest, f d = some (.ok v rest) → ∃ s, d = s ++ rest ∧ Enc env t {} v s) :
    ∀ (n : Nat) (d : Bytes) (vs rest), elems f n d = some (.ok vs rest) → ∃ s, d = s ++ rest ∧ EncAll env t vs s ∧ vs.length = n := by
  intro n
  induction n with
  | zero =>
    intro d vs rest h
    simp only [elems, Option.some.injEq, Res.ok.injEq] at h
    obtain ⟨rfl, rfl⟩ := h
    exact ⟨[], rfl, .nil t, rfl⟩
  | succ n ih =>
    intro d vs rest h
    rw [elems] at h
    cases hx : f d with
    | none => rw [hx] at h; cases h
    | some x =>
      rw [hx] at h
      cases x with
      | ok v d' =>
        dsimp only at h
        cases he : elems f n d' with
        | none => rw [he] at h; cases h
        | some y =>
          rw [he] at h
          cases y with
          | ok vs' d'' =>
            simp only [Res.map, Option.some.injEq, Res.ok.injEq] at h
            obtain ⟨rfl, rfl⟩ := h
            obtain ⟨s, rfl, hs⟩ := hf _ _ _ hx
            obtain ⟨r, rfl, hr, hl⟩ := ih _ _ _ he
            exact ⟨s ++ r, by simp, .cons _ _ _ _ _ hs hr, by simp [hl]⟩
          | err e d'' => cases h
          | panic => cases h
      | err e d' => cases h
      | panic => cases h

theorem fields_enc {env : Env} {f : Bool → GTy → Tags → Bytes → Option (Res Val)}
    (hf : ∀ ro t ts d v rest, f ro t ts d = some (.ok v rest) → ∃ s, d = s ++ rest ∧ Enc env t ts v s) (ro : Bool) :
    ∀ (fs : GFields) (d : Bytes) (vs rest), fields f ro fs d = some (.ok vs rest) → ∃ s, d = s ++ rest ∧ EncFields env fs vs s
  | .nil, d, vs, rest, h => by
    simp only [fields, Option.some.injEq, Res.ok.injEq] at h
    obtain ⟨rfl, rfl⟩ := h
    exact ⟨[], rfl, .nil⟩
  | .cons e tag t fs, d, vs, rest, h => by
    rw [fields] at h
    cases ht : fieldTags tag with
    | none => rw [ht] at h; cases h
    | some ts =>
      rw [ht] at h
      dsimp only at h
      cases hx : f (ro || !e) t ts d with
      | none => rw [hx] at h; cases h
      | some x =>
        rw [hx] at h
        cases x with
        | ok v d' =>
          dsimp only at h
          cases he : fields f ro fs d' with
          | none => rw [he] at h; cases h
          | some y =>
            rw [he] at h
            cases y with
            | ok vs' d'' =>
              simp only [Res.map, Option.some.injEq, Res.ok.injEq] at h
              obtain ⟨rfl, rfl⟩ := h
              obtain ⟨s, rfl, hs⟩ := hf _ _ _ _ _ _ hx
              obtain ⟨r, rfl, hr⟩ := fields_enc hf ro fs _ _ _ he
              exact ⟨s ++ r, by simp, .cons _ _ _ _ _ _ _ _ _ ht hs hr⟩
            | err e d'' => cases h
            | panic => cases h
        | err e d' => cases h
        | panic => cases h

theorem set_ok {ro : Bool} {v v' : Val} {d d' : Bytes} (h : some (set ro v d) = some (.ok v' d')) : v = v' ∧ d = d' := by
  unfold set at h
  split at h
  · cases h
  · simpa using h

theorem map_ok {α β} {x : Option (Res α)} {f : α → β} {v : β} {d : Bytes} (h : x.map (Res.map f) = some (.ok v d)) :
    ∃ a, x = some (.ok a d) ∧ v = f a := by
  cases x with
  | none => cases h
  | some y =>
    cases y with
    | ok a d' =>
      simp only [Option.map_some, Res.map, Option.some.injEq, Res.ok.injEq] at h
      obtain ⟨rfl, rfl⟩ := h
      exact ⟨a, rfl, rfl⟩
    | err e d' => cases h
    | panic => cases h

theorem value_enc (env : Env) : ∀ (f : Nat) (ro t ts d v rest), value env f ro t ts d = some (.ok v rest) →
    ∃ s, d = s ++ rest ∧ Enc env t ts v s := by
  intro f
  induction f with
  | zero => intro ro t ts d v rest h; cases h
  | succ f ih =>
    intro ro t ts d v rest h
    cases t with
    | name x =>
      obtain ⟨s, rfl, hs⟩ := ih _ _ _ _ _ _ h
      exact ⟨s, rfl, .name _ _ _ _ hs⟩
    | num k =>
      rw [value] at h
      cases hp : pop k.size d with
      | none => rw [hp] at h; cases h
      | some x =>
        obtain ⟨b, d'⟩ := x
        rw [hp] at h
        obtain ⟨rfl, rfl⟩ := set_ok h
        obtain ⟨hl, rfl⟩ := pop_some hp
        refine ⟨b, rfl, ?_⟩
        have := Enc.num (env := env) k ts (getBE b) (by rw [numBytes_eq, ← hl]; exact getBE_lt b)
        rwa [numBytes_eq, ← putBE_eq_digits, putBE_getBE' hl] at this
    | bool =>
      rw [value] at h
      cases hp : pop 1 d with
      | none => rw [hp] at h; cases h
      | some x =>
        obtain ⟨b, d'⟩ := x
        rw [hp] at h
        dsimp only at h
        obtain ⟨hl, rfl⟩ := pop_some hp
        split at h
        · rename_i hb
          subst hb
          obtain ⟨rfl, rfl⟩ := set_ok h
          exact ⟨_, rfl, .bool ts false⟩
        · split at h
          · rename_i hb
            subst hb
            obtain ⟨rfl, rfl⟩ := set_ok h
            exact ⟨_, rfl, .bool ts true⟩
          · cases h
    | str =>
      rw [value] at h
      cases hl : readLen ts d with
      | panic => rw [hl] at h; cases h
      | err e d' => rw [hl] at h; cases h
      | ok u d' =>
        rw [hl] at h
        dsimp only at h
        obtain ⟨k, hk, hm, rfl⟩ := readLen_ok hl
        cases hp : pop u d' with
        | none => rw [hp] at h; cases h
        | some x =>
          obtain ⟨b, d''⟩ := x
          rw [hp] at h
          obtain ⟨rfl, rfl⟩ := set_ok h
          obtain ⟨rfl, rfl⟩ := pop_some hp
          exact ⟨_, by simp, .str _ _ _ (len_intro hk hm)⟩
    | byteSlice =>
      rw [value] at h
      cases hl : readLen ts d with
      | panic => rw [hl] at h; cases h
      | err e d' => rw [hl] at h; cases h
      | ok u d' =>
        rw [hl] at h
        dsimp only at h
        obtain ⟨k, hk, hm, rfl⟩ := readLen_ok hl
        cases hp : pop u d' with
        | none => rw [hp] at h; cases h
        | some x =>
          obtain ⟨b, d''⟩ := x
          rw [hp] at h
          obtain ⟨rfl, rfl⟩ := set_ok h
          obtain ⟨rfl, rfl⟩ := pop_some hp
          exact ⟨_, by simp, .byteSlice _ _ _ (len_intro hk hm)⟩
    | byteArr own n =>
      rw [value] at h
      cases hp : pop n d with
      | none => rw [hp] at h; cases h
      | some x =>
        obtain ⟨b, d'⟩ := x
        rw [hp] at h
        dsimp only at h
        split at h
        · cases h
        · obtain ⟨rfl, rfl⟩ := set_ok h
          obtain ⟨hl, rfl⟩ := pop_some hp
          exact ⟨_, rfl, .byteArr _ _ _ _ hl⟩
    | arr n t =>
      rw [value] at h
      obtain ⟨vs, hv, rfl⟩ := map_ok h
      obtain ⟨s, rfl, hs, hn⟩ := elems_enc (fun d v rest => ih ro t {} d v rest) _ _ _ _ hv
      exact ⟨s, rfl, .arr _ _ _ _ _ hs hn⟩
    | slice t =>
      rw [value] at h
      cases hl : readLen ts d with
      | panic => rw [hl] at h; cases h
      | err e d' => rw [hl] at h; cases h
      | ok u d' =>
        rw [hl] at h
        dsimp only at h
        obtain ⟨k, hk, hm, rfl⟩ := readLen_ok hl
        split at h
        · cases h
        · split at h
          · cases h
          · obtain ⟨vs, hv, rfl⟩ := map_ok h
            obtain ⟨s, rfl, hs, rfl⟩ := elems_enc (fun d v rest => ih false t {} d v rest) _ _ _ _ hv
            exact ⟨_, by simp, .slice _ _ _ _ _ (len_intro hk hm) hs⟩
    | ptr t =>
      rw [value] at h
      split at h
      · rename_i ho
        cases hp : pop 1 d with
        | none => rw [hp] at h; cases h
        | some x =>
          obtain ⟨b, d'⟩ := x
          rw [hp] at h
          dsimp only at h
          obtain ⟨hl, rfl⟩ := pop_some hp
          split at h
          · rename_i hb
            subst hb
            obtain ⟨rfl, rfl⟩ := set_ok h
            exact ⟨_, rfl, .absent _ _ ho⟩
          · split at h
            · rename_i hb
              subst hb
              split at h
              · cases h
              · obtain ⟨v', hv, rfl⟩ := map_ok h
                obtain ⟨s, rfl, hs⟩ := ih _ _ _ _ _ _ hv
                exact ⟨1 :: s, rfl, .present _ _ _ _ ho hs⟩
            · cases h
      · rename_i ho
        split at h
        · cases h
        · obtain ⟨v', hv, rfl⟩ := map_ok h
          obtain ⟨s, rfl, hs⟩ := ih _ _ _ _ _ _ hv
          exact ⟨s, rfl, .ptr _ _ _ _ (by simpa using ho) hs⟩
    | struct fs =>
      rw [value] at h
      obtain ⟨vs, hv, rfl⟩ := map_ok h
      obtain ⟨s, rfl, hs⟩ := fields_enc (fun ro t ts d v rest => ih ro t ts d v rest) _ _ _ _ _ hv
      exact ⟨s, rfl, .struct _ _ _ _ hs⟩
    | other => cases h

/-! ## What has these bytes is decoded -/

theorem encAll_length {env : Env} {t : GTy} (hne : ∀ v s, Enc env t {} v s → s ≠ []) : ∀ {vs : List Val} {s : Bytes},
    EncAll env t vs s → vs.length ≤ s.length
  | _, _, .nil _ => Nat.le_refl _
  | _, _, .cons _ v vs s r h hs => by
    have := encAll_length hne hs
    have h1 : s.length ≠ 0 := fun e => hne _ _ h (List.length_eq_zero_iff.mp e)
    simp only [List.length_cons, List.length_append]
    omega

mutual
theorem enc_value {env : Env} (hF : ∀ x, (env x).Fine env) : ∀ {t : GTy} {ts : Tags} {v : Val} {s : Bytes}, Enc env t ts v s →
    t.Fine env → ∃ f, ∀ g, f ≤ g → ∀ rest, value env g false t ts (s ++ rest) = some (.ok v rest)
  | _, _, _, _, .num k ts x hx, _ => ⟨1, fun g hg rest => by
    obtain ⟨g, rfl⟩ : ∃ g', g = g' + 1 := ⟨g - 1, by omega⟩
    rw [numBytes_eq] at hx
    rw [value, numBytes_eq, ← putBE_eq_digits, pop_append (putBE_length _ _)]
    dsimp only
    rw [getBE_putBE_of_lt hx]
    rfl⟩
  | _, _, _, _, .bool ts b, _ => ⟨1, fun g hg rest => by
    obtain ⟨g, rfl⟩ : ∃ g', g = g' + 1 := ⟨g - 1, by omega⟩
    rw [value, pop_append (n := 1) (a := [if b then 1 else 0]) rfl]
    cases b <;> rfl⟩
  | _, _, _, _, .str ts p s hp, _ => ⟨1, fun g hg rest => by
    obtain ⟨g, rfl⟩ : ∃ g', g = g' + 1 := ⟨g - 1, by omega⟩
    obtain ⟨k, hk, hm, rfl⟩ := len_some hp
    rw [value, List.append_assoc, readLen_spec hk hm]
    dsimp only
    rw [pop_append rfl]
    rfl⟩
  | _, _, _, _, .byteSlice ts p s hp, _ => ⟨1, fun g hg rest => by
    obtain ⟨g, rfl⟩ : ∃ g', g = g' + 1 := ⟨g - 1, by omega⟩
    obtain ⟨k, hk, hm, rfl⟩ := len_some hp
    rw [value, List.append_assoc, readLen_spec hk hm]
    dsimp only
    rw [pop_append rfl]
    rfl⟩
  | _, _, _, _, .byteArr own n ts s hn, hf => ⟨1, fun g hg rest => by
    obtain ⟨g, rfl⟩ : ∃ g', g = g' + 1 := ⟨g - 1, by omega⟩
    simp only [GTy.Fine] at hf
    subst hf
    rw [value, pop_append hn]
    rfl⟩
  | _, _, _, _, .arr n t ts vs s h hn, hf => by
    simp only [GTy.Fine] at hf
    obtain ⟨f, hf⟩ := encAll_elems hF h hf
    refine ⟨f + 1, fun g hg rest => ?_⟩
    obtain ⟨g, rfl⟩ : ∃ g', g = g' + 1 := ⟨g - 1, by omega⟩
    rw [value, ← hn, hf g (by omega)]
    rfl
  | _, _, _, _, .slice t ts p vs s hp h, hf => by
    simp only [GTy.Fine] at hf
    have hlen := encAll_length hf.2 h
    obtain ⟨f, hf⟩ := encAll_elems hF h hf.1
    refine ⟨f + 1, fun g hg rest => ?_⟩
    obtain ⟨g, rfl⟩ : ∃ g', g = g' + 1 := ⟨g - 1, by omega⟩
    obtain ⟨k, hk, hm, rfl⟩ := len_some hp
    rw [value, List.append_assoc, readLen_spec hk hm]
    dsimp only
    rw [if_neg (by simp only [List.length_append]; omega), if_neg (by simp), hf g (by omega)]
    rfl
  | _, _, _, _, .absent t ts ho, _ => ⟨1, fun g hg rest => by
    obtain ⟨g, rfl⟩ : ∃ g', g = g' + 1 := ⟨g - 1, by omega⟩
    rw [value, if_pos ho, pop_append (n := 1) (a := [0]) rfl]
    rfl⟩
  | _, _, _, _, .present t ts v s ho hv, hf => by
    simp only [GTy.Fine] at hf
    obtain ⟨f, hf⟩ := enc_value hF hv hf
    refine ⟨f + 1, fun g hg rest => ?_⟩
    obtain ⟨g, rfl⟩ : ∃ g', g = g' + 1 := ⟨g - 1, by omega⟩
    have hp : pop 1 (1 :: s ++ rest) = some ([1], s ++ rest) := pop_append (a := [1]) rfl
    rw [value, if_pos ho, hp]
    dsimp only
    rw [if_neg (by decide), if_pos rfl, if_neg (by simp), hf g (by omega)]
    rfl
  | _, _, _, _, .ptr t ts v s ho hv, hf => by
    simp only [GTy.Fine] at hf
    obtain ⟨f, hf⟩ := enc_value hF hv hf
    refine ⟨f + 1, fun g hg rest => ?_⟩
    obtain ⟨g, rfl⟩ : ∃ g', g = g' + 1 := ⟨g - 1, by omega⟩
    rw [value, if_neg (by simp [ho]), if_neg (by simp), hf g (by omega)]
    rfl
  | _, _, _, _, .struct fs ts vs s h, hf => by
    simp only [GTy.Fine] at hf
    obtain ⟨f, hf⟩ := encFields_fields hF h hf
    refine ⟨f + 1, fun g hg rest => ?_⟩
    obtain ⟨g, rfl⟩ : ∃ g', g = g' + 1 := ⟨g - 1, by omega⟩
    rw [value, hf g (by omega)]
    rfl
  | _, _, _, _, .name x ts v s h, _ => by
    obtain ⟨f, hf⟩ := enc_value hF h (hF x)
    refine ⟨f + 1, fun g hg rest => ?_⟩
    obtain ⟨g, rfl⟩ : ∃ g', g = g' + 1 := ⟨g - 1, by omega⟩
    rw [value, hf g (by omega)]
theorem encAll_elems {env : Env} (hF : ∀ x, (env x).Fine env) : ∀ {t : GTy} {vs : List Val} {s : Bytes}, EncAll env t vs s →
    t.Fine env → ∃ f, ∀ g, f ≤ g → ∀ rest, elems (value env g false t {}) vs.length (s ++ rest) = some (.ok vs rest)
  | _, _, _, .nil _, _ => ⟨0, fun _ _ _ => rfl⟩
  | _, _, _, .cons t v vs s r h hs, hf => by
    obtain ⟨f1, h1⟩ := enc_value hF h hf
    obtain ⟨f2, h2⟩ := encAll_elems hF hs hf
    refine ⟨max f1 f2, fun g hg rest => ?_⟩
    rw [List.length_cons, elems, List.append_assoc, h1 g (by omega)]
    dsimp only
    rw [h2 g (by omega)]
    rfl
theorem encFields_fields {env : Env} (hF : ∀ x, (env x).Fine env) : ∀ {fs : GFields} {vs : List Val} {s : Bytes}, EncFields env fs vs s →
    fs.Fine env → ∃ f, ∀ g, f ≤ g → ∀ rest, fields (value env g) false fs (s ++ rest) = some (.ok vs rest)
  | _, _, _, .nil, _ => ⟨0, fun _ _ _ => rfl⟩
  | _, _, _, .cons e tag t fs ts v vs s r ht h hs, hf => by
    rw [GFields.Fine] at hf
    obtain ⟨rfl, -, hf1, hf2⟩ := hf
    obtain ⟨f1, h1⟩ := enc_value hF h hf1
    obtain ⟨f2, h2⟩ := encFields_fields hF hs hf2
    refine ⟨max f1 f2, fun g hg rest => ?_⟩
    rw [fields, ht, List.append_assoc]
    dsimp only
    rw [show (false || !true) = false from rfl, h1 g (by omega)]
    dsimp only
    rw [h2 g (by omega)]
    rfl
end

/-! ## Depth of the recursion -/

theorem value_shrinks {env : Env} {f : Nat} {ro t ts d v rest} (h : value env f ro t ts d = some (.ok v rest)) :
    rest.length ≤ d.length := by
  obtain ⟨s, rfl, -⟩ := value_enc env f ro t ts d v rest h
  simp

theorem elems_returns {f : Bytes → Option (Res Val)} {n : Nat} (hf : ∀ d, d.length ≤ n → f d ≠ none)
    (hs : ∀ d v rest, f d = some (.ok v rest) → rest.length ≤ d.length) : ∀ (k : Nat) (d : Bytes), d.length ≤ n → elems f k d ≠ none := by
  intro k
  induction k with
  | zero => intro d _ h; cases h
  | succ k ih =>
    intro d hd
    rw [elems]
    cases hx : f d with
    | none => exact absurd hx (hf d hd)
    | some x =>
      cases x with
      | ok v d' =>
        dsimp only
        cases he : elems f k d' with
        | none => exact absurd he (ih d' (Nat.le_trans (hs _ _ _ hx) hd))
        | some y => simp
      | err e d' => simp
      | panic => simp

theorem fields_returns {f : Bool → GTy → Tags → Bytes → Option (Res Val)} {n r s : Nat} {P : Nat → Tags → Prop} {ro : Bool}
    (hf : ∀ ro t ts d, d.length ≤ n → t.size ≤ s → t.Needs P ts → f ro t ts d ≠ none)
    (hs : ∀ ro t ts d v rest, f ro t ts d = some (.ok v rest) → rest.length ≤ d.length) :
    ∀ (fs : GFields) (d : Bytes), d.length ≤ n → fs.size ≤ s → fs.Needs P → fields f ro fs d ≠ none
  | .nil, d, _, _, _ => by simp [fields]
  | .cons e tag t fs, d, hd, hz, hn => by
    rw [GFields.size] at hz
    rw [GFields.Needs] at hn
    rw [fields]
    cases ht : fieldTags tag with
    | none => simp
    | some ts =>
      dsimp only
      cases hx : f (ro || !e) t ts d with
      | none => exact absurd hx (hf _ _ _ _ hd (by omega) (hn.1 ts ht))
      | some x =>
        cases x with
        | ok v d' =>
          dsimp only
          cases he : fields f ro fs d' with
          | none => exact absurd he (fields_returns (r := r) hf hs fs d' (Nat.le_trans (hs _ _ _ _ _ _ hx) hd) (by omega) hn.2)
          | some y => simp
        | err e d' => simp
        | panic => simp

mutual
theorem needs_all {P : Nat → Tags → Prop} (h : ∀ x ts, P x ts) : ∀ (t : GTy) (ts : Tags), t.Needs P ts
  | .arr n t, _ => by rw [GTy.Needs]; exact fun _ => needs_all h t {}
  | .ptr t, ts => by rw [GTy.Needs]; exact fun _ => needs_all h t ts
  | .struct fs, _ => by rw [GTy.Needs]; exact needsFields_all h fs
  | .name x, ts => h x ts
  | .num _, _ | .bool, _ | .str, _ | .byteArr _ _, _ | .byteSlice, _ | .slice _, _ | .other, _ => trivial
theorem needsFields_all {P : Nat → Tags → Prop} (h : ∀ x ts, P x ts) : ∀ (fs : GFields), fs.Needs P
  | .nil => trivial
  | .cons _ _ t fs => by rw [GFields.Needs]; exact ⟨fun ts _ => needs_all h t ts, needsFields_all h fs⟩
end

theorem size_pos (t : GTy) : 1 ≤ t.size := by
  cases t <;> simp [GTy.size]

theorem map_ne_none {α β} {x : Option α} {f : α → β} (h : x ≠ none) : x.map f ≠ none := by
  cases x with
  | none => exact absurd rfl h
  | some a => simp

theorem lenKind_pos (k : LenKind) : 1 ≤ k.size := by cases k <;> decide

/-- `S` bounds the texts of the declarations, `R` the ranks. -/
theorem value_returns {env : Env} {S R : Nat} {rank : Nat → Tags → Nat} (hS : ∀ x, (env x).size ≤ S) (hR : ∀ x ts, rank x ts < R)
    (hrank : ∀ x ts, (env x).Needs (fun y ts' => rank y ts' < rank x ts) ts) :
    ∀ (f n r s : Nat) (ro : Bool) (t : GTy) (ts : Tags) (d : Bytes), d.length ≤ n → t.size ≤ s → s ≤ S → r ≤ R →
      t.Needs (fun y ts' => rank y ts' < r) ts → n * (S * R + S) + r * S + s ≤ f → value env f ro t ts d ≠ none := by
  intro f
  induction f with
  | zero =>
    intro n r s ro t ts d hd hz hs hr hn hf
    have := size_pos t
    omega
  | succ f ih =>
    intro n r s ro t ts d hd hz hs hr hn hf
    -- after at least one byte was read any declared type may follow
    have later : ∀ (ro : Bool) (t' : GTy) (ts' : Tags) (d' : Bytes), d'.length + 1 ≤ n → t'.size + 1 ≤ s → value env f ro t' ts' d' ≠ none := by
      intro ro t' ts' d' hd' hz'
      obtain ⟨m, rfl⟩ : ∃ m, n = m + 1 := ⟨n - 1, by omega⟩
      refine ih m R (s - 1) ro t' ts' d' (by omega) (by omega) (by omega) (Nat.le_refl R) (needs_all (fun x ts => hR x ts) t' ts') ?_
      have e1 : (m + 1) * (S * R + S) = m * (S * R + S) + (S * R + S) := Nat.succ_mul _ _
      have e2 : S * R = R * S := Nat.mul_comm _ _
      omega
    cases t with
    | name x =>
      simp only [GTy.Needs] at hn
      simp only [GTy.size] at hz
      have h1 := hrank x ts
      refine ih n (rank x ts) S ro (env x) ts d hd (hS x) (Nat.le_refl S) (Nat.le_of_lt (hR x ts)) h1 ?_
      have e1 : (rank x ts + 1) * S ≤ r * S := Nat.mul_le_mul_right S hn
      have e2 : (rank x ts + 1) * S = rank x ts * S + S := Nat.succ_mul _ _
      omega
    | num k => rw [value]; repeat' split
               all_goals simp
    | bool => rw [value]; repeat' split
              all_goals simp
    | str => rw [value]; repeat' split
             all_goals simp
    | byteSlice => rw [value]; repeat' split
                   all_goals simp
    | byteArr own n => rw [value]; repeat' split
                       all_goals simp
    | other => simp [value]
    | arr k t =>
      rw [value]
      simp only [GTy.size] at hz
      apply map_ne_none
      cases k with
      | zero => simp [elems]
      | succ k =>
        simp only [GTy.Needs] at hn
        have hn := hn (by omega)
        exact elems_returns (n := n) (fun d' hd' => ih n r (s - 1) ro t {} d' hd' (by omega) (by omega) hr hn (by omega))
          (fun _ _ _ h => value_shrinks h) _ _ hd
    | slice t =>
      rw [value]
      simp only [GTy.size] at hz
      cases hl : readLen ts d with
      | panic => simp
      | err e d' => simp
      | ok u d' =>
        obtain ⟨k, -, -, rfl⟩ := readLen_ok hl
        have hk := lenKind_pos k
        simp only [List.length_append, putLen_length] at hd
        dsimp only
        split
        · simp
        · split
          · simp
          · apply map_ne_none
            exact elems_returns (n := d'.length) (fun d'' hd'' => later false t {} d'' (by omega) (by omega))
              (fun _ _ _ h => value_shrinks h) _ _ (Nat.le_refl _)
    | ptr t =>
      rw [value]
      simp only [GTy.size] at hz
      simp only [GTy.Needs] at hn
      split
      · cases hp : pop 1 d with
        | none => simp
        | some x =>
          obtain ⟨b, d'⟩ := x
          obtain ⟨hl, rfl⟩ := pop_some hp
          simp only [List.length_append, hl] at hd
          dsimp only
          split
          · simp
          · split
            · split
              · simp
              · exact map_ne_none (later false t ts d' (by omega) (by omega))
            · simp
      · rename_i ho
        split
        · simp
        · exact map_ne_none (ih n r (s - 1) false t ts d hd (by omega) (by omega) hr (hn (by simpa using ho)) (by omega))
    | struct fs =>
      rw [value]
      simp only [GTy.size] at hz
      simp only [GTy.Needs] at hn
      exact map_ne_none (fields_returns (r := r) (fun ro t ts d hd' hz' hn' => ih n r (s - 1) ro t ts d hd' hz' (by omega) hr hn' (by omega))
        (fun _ _ _ _ _ _ h => value_shrinks h) fs d hd (by omega) hn)

/-! ## Types without finite values -/

theorem elems_never {f : Bytes → Option (Res Val)} (hf : ∀ d v rest, f d ≠ some (.ok v rest)) (n : Nat) (d : Bytes) (vs rest) :
    elems f (n + 1) d ≠ some (.ok vs rest) := by
  intro h
  rw [elems] at h
  cases hx : f d with
  | none => rw [hx] at h; cases h
  | some x =>
    cases x with
    | ok v d' => exact hf _ _ _ hx
    | err e d' => rw [hx] at h; cases h
    | panic => rw [hx] at h; cases h

theorem fields_never {f : Bool → GTy → Tags → Bytes → Option (Res Val)} {P : Nat → Tags → Prop} {ro : Bool}
    (hf : ∀ ro t ts d v rest, t.Contains P ts → f ro t ts d ≠ some (.ok v rest)) :
    ∀ (fs : GFields) (d : Bytes) (vs rest), fs.Contains P → fields f ro fs d ≠ some (.ok vs rest)
  | .nil, _, _, _, h => h.elim
  | .cons e tag t fs, d, vs, rest, hc => by
    rw [GFields.Contains] at hc
    intro h
    rw [fields] at h
    cases ht : fieldTags tag with
    | none => rw [ht] at h; cases h
    | some ts =>
      rw [ht] at h
      dsimp only at h
      cases hx : f (ro || !e) t ts d with
      | none => rw [hx] at h; cases h
      | some x =>
        rw [hx] at h
        cases x with
        | ok v d' =>
          dsimp only at h
          rcases hc with ⟨ts', hts, hc⟩ | hc
          · rw [ht] at hts
            cases hts
            exact hf _ _ _ _ _ _ hc hx
          · cases he : fields f ro fs d' with
            | none => rw [he] at h; cases h
            | some y =>
              rw [he] at h
              cases y with
              | ok vs' d'' => exact fields_never hf fs d' vs' d'' hc he
              | err e d'' => cases h
              | panic => cases h
        | err e d' => cases h
        | panic => cases h

theorem value_never {env : Env} {P : Nat → Tags → Prop} (hP : ∀ x ts, P x ts → (env x).Contains P ts) :
    ∀ (f : Nat) (ro t ts d v rest), t.Contains P ts → value env f ro t ts d ≠ some (.ok v rest) := by
  intro f
  induction f with
  | zero => intro ro t ts d v rest _ h; cases h
  | succ f ih =>
    intro ro t ts d v rest hc h
    cases t with
    | name x => exact ih _ _ _ _ _ _ (hP x ts hc) h
    | arr n t =>
      simp only [GTy.Contains] at hc
      rw [value] at h
      obtain ⟨vs, hv, -⟩ := map_ok h
      obtain ⟨n, rfl⟩ : ∃ m, n = m + 1 := ⟨n - 1, by omega⟩
      exact elems_never (fun d v rest => ih ro t {} d v rest hc.2) _ _ _ _ hv
    | ptr t =>
      simp only [GTy.Contains] at hc
      rw [value, if_neg (by simp [hc.1])] at h
      split at h
      · cases h
      · obtain ⟨v', hv, -⟩ := map_ok h
        exact ih _ _ _ _ _ _ hc.2 hv
    | struct fs =>
      simp only [GTy.Contains] at hc
      rw [value] at h
      obtain ⟨vs, hv, -⟩ := map_ok h
      exact fields_never (fun ro t ts d v rest hc => ih ro t ts d v rest hc) _ _ _ _ hc hv
    | _ => exact hc

/-! ## No panic -/

theorem elems_no_panic {f : Bytes → Option (Res Val)} (hf : ∀ d, f d ≠ some .panic) : ∀ (n : Nat) (d : Bytes), elems f n d ≠ some .panic := by
  intro n
  induction n with
  | zero => intro d h; cases h
  | succ n ih =>
    intro d h
    rw [elems] at h
    cases hx : f d with
    | none => rw [hx] at h; cases h
    | some x =>
      rw [hx] at h
      cases x with
      | ok v d' =>
        dsimp only at h
        cases he : elems f n d' with
        | none => rw [he] at h; cases h
        | some y =>
          rw [he] at h
          cases y with
          | ok vs d'' => cases h
          | err e d'' => cases h
          | panic => exact ih _ he
      | err e d' => cases h
      | panic => exact hf _ hx

theorem fields_no_panic {env : Env} {f : Bool → GTy → Tags → Bytes → Option (Res Val)}
    (hf : ∀ t ts d, t.Fine env → f false t ts d ≠ some .panic) :
    ∀ (fs : GFields) (d : Bytes), fs.Fine env → fields f false fs d ≠ some .panic
  | .nil, _, _ => by simp [fields]
  | .cons e tag t fs, d, hF => by
    rw [GFields.Fine] at hF
    obtain ⟨rfl, h1, h2, h3⟩ := hF
    intro h
    rw [fields] at h
    cases ht : fieldTags tag with
    | none => rw [ht] at h1; cases h1
    | some ts =>
      rw [ht] at h
      dsimp only at h
      rw [show (false || !true) = false from rfl] at h
      cases hx : f false t ts d with
      | none => rw [hx] at h; cases h
      | some x =>
        rw [hx] at h
        cases x with
        | ok v d' =>
          dsimp only at h
          cases he : fields f false fs d' with
          | none => rw [he] at h; cases h
          | some y =>
            rw [he] at h
            cases y with
            | ok vs d'' => cases h
            | err e d'' => cases h
            | panic => exact fields_no_panic hf fs d' h3 he
        | err e d' => cases h
        | panic => exact hf t ts d h2 hx

theorem map_panic {α β} {x : Option (Res α)} {f : α → β} (h : x ≠ some .panic) : x.map (Res.map f) ≠ some .panic := by
  cases x with
  | none => simp
  | some y => cases y <;> simp_all [Res.map]

theorem value_no_panic {env : Env} (hE : ∀ x, (env x).Fine env) : ∀ (f : Nat) (t ts d), t.Fine env → value env f false t ts d ≠ some .panic := by
  intro f
  induction f with
  | zero => intro t ts d _ h; cases h
  | succ f ih =>
    intro t ts d hF
    cases t with
    | name x => exact ih _ _ _ (hE x)
    | num k => rw [value]; split <;> simp [set]
    | bool =>
      rw [value]
      repeat' split
      all_goals simp [set]
    | str =>
      rw [value]
      have := readLen_ne_panic ts d
      repeat' split
      all_goals first | contradiction | simp [set]
    | byteSlice =>
      rw [value]
      have := readLen_ne_panic ts d
      repeat' split
      all_goals first | contradiction | simp [set]
    | byteArr own n =>
      simp only [GTy.Fine] at hF
      subst hF
      rw [value]; split <;> simp [set]
    | other => simp [value]
    | arr k t =>
      simp only [GTy.Fine] at hF
      rw [value]
      exact map_panic (elems_no_panic (fun d => ih t {} d hF) _ _)
    | slice t =>
      simp only [GTy.Fine] at hF
      rw [value]
      split
      · split
        · simp
        · rw [if_neg (by simp)]
          exact map_panic (elems_no_panic (fun d => ih t {} d hF.1) _ _)
      · simp
      · rename_i h; exact absurd h (readLen_ne_panic ts d)
    | ptr t =>
      simp only [GTy.Fine] at hF
      rw [value]
      split
      · split
        · simp
        · split
          · simp [set]
          · split
            · rw [if_neg (by simp)]; exact map_panic (ih _ _ _ hF)
            · simp
      · rw [if_neg (by simp)]; exact map_panic (ih _ _ _ hF)
    | struct fs =>
      simp only [GTy.Fine] at hF
      rw [value]
      exact map_panic (fields_no_panic (fun t ts d h => ih t ts d h) fs d hF)

/-! ## Encoding -/

mutual
theorem enc_marshal {env : Env} {h : Nat → HVal} : ∀ {t : GTy} {ts : Tags} {v : Val} {s : Bytes}, Enc env t ts v s → ∀ hv, Repr h hv v →
    ∃ f, ∀ g, f ≤ g → ∀ b, marshal env h g t hv b ts = some (.ok (b ++ s))
  | _, _, _, _, .num k ts x hx, _, .num _ => ⟨1, fun g hg b => by
    obtain ⟨g, rfl⟩ : ∃ g', g = g' + 1 := ⟨g - 1, by omega⟩
    rw [marshal, numBytes_eq, ← putBE_eq_digits]⟩
  | _, _, _, _, .bool ts x, _, .bool _ => ⟨1, fun g hg b => by
    obtain ⟨g, rfl⟩ : ∃ g', g = g' + 1 := ⟨g - 1, by omega⟩
    rw [marshal]⟩
  | _, _, _, _, .str ts p s hp, _, .bytes _ => ⟨1, fun g hg b => by
    obtain ⟨g, rfl⟩ : ∃ g', g = g' + 1 := ⟨g - 1, by omega⟩
    obtain ⟨k, hk, hm, rfl⟩ := len_some hp
    rw [marshal, hk]
    simp⟩
  | _, _, _, _, .byteSlice ts p s hp, _, .bytes _ => ⟨1, fun g hg b => by
    obtain ⟨g, rfl⟩ : ∃ g', g = g' + 1 := ⟨g - 1, by omega⟩
    obtain ⟨k, hk, hm, rfl⟩ := len_some hp
    rw [marshal, hk]
    simp⟩
  | _, _, _, _, .byteArr own n ts s hn, _, .bytes _ => ⟨1, fun g hg b => by
    obtain ⟨g, rfl⟩ : ∃ g', g = g' + 1 := ⟨g - 1, by omega⟩
    rw [marshal]⟩
  | _, _, _, _, .arr n t ts vs s he hn, hv, hr => by
    obtain ⟨xs, rfl⟩ : ∃ xs, hv = .seq xs := by cases hr <;> exact ⟨_, rfl⟩
    obtain ⟨f, hf⟩ := encAll_marshal he xs hr
    refine ⟨f + 1, fun g hg b => ?_⟩
    obtain ⟨g, rfl⟩ : ∃ g', g = g' + 1 := ⟨g - 1, by omega⟩
    rw [marshal, hf g (by omega)]
  | _, _, _, _, .slice t ts p vs s hp he, hv, hr => by
    obtain ⟨xs, rfl⟩ : ∃ xs, hv = .seq xs := by cases hr <;> exact ⟨_, rfl⟩
    obtain ⟨f, hf⟩ := encAll_marshal he xs hr
    have hl := repr_length hr
    refine ⟨f + 1, fun g hg b => ?_⟩
    obtain ⟨g, rfl⟩ : ∃ g', g = g' + 1 := ⟨g - 1, by omega⟩
    obtain ⟨k, hk, hm, rfl⟩ := len_some hp
    rw [marshal, hk]
    dsimp only
    rw [hf g (by omega), hl]
    simp
  | _, _, _, _, .absent t ts ho, _, .nil => ⟨1, fun g hg b => by
    obtain ⟨g, rfl⟩ : ∃ g', g = g' + 1 := ⟨g - 1, by omega⟩
    rw [marshal, if_pos ho]⟩
  | _, _, _, _, .present t ts v s ho he, _, .ref p _ hr => by
    obtain ⟨f, hf⟩ := enc_marshal he _ hr
    refine ⟨f + 1, fun g hg b => ?_⟩
    obtain ⟨g, rfl⟩ : ∃ g', g = g' + 1 := ⟨g - 1, by omega⟩
    rw [marshal, if_pos ho, hf g (by omega)]
    simp
  | _, _, _, _, .ptr t ts v s ho he, _, .ref p _ hr => by
    obtain ⟨f, hf⟩ := enc_marshal he _ hr
    refine ⟨f + 1, fun g hg b => ?_⟩
    obtain ⟨g, rfl⟩ : ∃ g', g = g' + 1 := ⟨g - 1, by omega⟩
    rw [marshal, if_neg (by simp [ho]), hf g (by omega)]
  | _, _, _, _, .struct fs ts vs s he, hv, hr => by
    obtain ⟨xs, rfl⟩ : ∃ xs, hv = .seq xs := by cases hr <;> exact ⟨_, rfl⟩
    obtain ⟨f, hf⟩ := encFields_marshal he xs hr
    refine ⟨f + 1, fun g hg b => ?_⟩
    obtain ⟨g, rfl⟩ : ∃ g', g = g' + 1 := ⟨g - 1, by omega⟩
    rw [marshal, hf g (by omega)]
  | _, _, _, _, .name x ts v s he, hv, hr => by
    obtain ⟨f, hf⟩ := enc_marshal he hv hr
    refine ⟨f + 1, fun g hg b => ?_⟩
    obtain ⟨g, rfl⟩ : ∃ g', g = g' + 1 := ⟨g - 1, by omega⟩
    rw [marshal, hf g (by omega)]
theorem encAll_marshal {env : Env} {h : Nat → HVal} : ∀ {t : GTy} {vs : List Val} {s : Bytes}, EncAll env t vs s → ∀ xs, Repr h (.seq xs) (.seq vs) →
    ∃ f, ∀ g, f ≤ g → ∀ b, putElems (fun v b => marshal env h g t v b {}) xs b = some (.ok (b ++ s))
  | _, _, _, .nil _, _, .seqNil => ⟨0, fun _ _ b => by simp [putElems]⟩
  | _, _, _, .cons t v vs s r he hs, _, .seqCons x xs _ _ hv hr => by
    obtain ⟨f1, h1⟩ := enc_marshal he x hv
    obtain ⟨f2, h2⟩ := encAll_marshal hs xs hr
    refine ⟨max f1 f2, fun g hg b => ?_⟩
    rw [putElems, h1 g (by omega)]
    dsimp only
    rw [h2 g (by omega), List.append_assoc]
theorem encFields_marshal {env : Env} {h : Nat → HVal} : ∀ {fs : GFields} {vs : List Val} {s : Bytes}, EncFields env fs vs s → ∀ xs, Repr h (.seq xs) (.seq vs) →
    ∃ f, ∀ g, f ≤ g → ∀ b, putFields (marshal env h g) fs xs b = some (.ok (b ++ s))
  | _, _, _, .nil, _, .seqNil => ⟨0, fun _ _ b => by simp [putFields]⟩
  | _, _, _, .cons e tag t fs ts v vs s r ht he hs, _, .seqCons x xs _ _ hv hr => by
    obtain ⟨f1, h1⟩ := enc_marshal he x hv
    obtain ⟨f2, h2⟩ := encFields_marshal hs xs hr
    refine ⟨max f1 f2, fun g hg b => ?_⟩
    rw [putFields, ht]
    dsimp only
    rw [h1 g (by omega)]
    dsimp only
    rw [h2 g (by omega), List.append_assoc]
theorem repr_length {h : Nat → HVal} : ∀ {xs : List HVal} {vs : List Val}, Repr h (.seq xs) (.seq vs) → xs.length = vs.length
  | _, _, .seqNil => rfl
  | _, _, .seqCons _ _ _ _ _ hs => by simp [repr_length hs]
end

/-! ## The property -/

/-- C138. What `Unmarshal` returns has the bytes that were read, for every declaration; so a value that was decoded has one
encoding, the one it came in. -/
theorem C138_decoded (env : Env) (f : Nat) (t : GTy) (ts : Tags) (d : Bytes) (v : Val) (rest : Bytes)
    (h : value env f false t ts d = some (.ok v rest)) : ∃ s, d = s ++ rest ∧ Enc env t ts v s :=
  value_enc env f false t ts d v rest h

/-- C138. Every value that is a tree is encoded as specified, appended to what was there, and is decoded back, whatever follows. -/
theorem C138_round_trip (env : Env) (hE : ∀ x, (env x).Fine env) (t : GTy) (ht : t.Fine env) (ts : Tags) (h : Nat → HVal) (hv : HVal)
    (v : Val) (hr : Repr h hv v) (s : Bytes) (he : Enc env t ts v s) : ∃ f, ∀ g, f ≤ g →
      (∀ b, marshal env h g t hv b ts = some (.ok (b ++ s))) ∧
      ∀ rest, value env g false t ts (s ++ rest) = some (.ok v rest) := by
  obtain ⟨f1, h1⟩ := enc_marshal he hv hr
  obtain ⟨f2, h2⟩ := enc_value hE he ht
  exact ⟨max f1 f2, fun g hg => ⟨fun b => h1 g (by omega) b, fun rest => h2 g (by omega) rest⟩⟩

/-- C138. If the declared types can be ranked so that none needs a value of its own rank, `Unmarshal` returns on every input and
for every type, and the depth of its recursion is linear in the input. (`S`: length of the declarations and of the type, `R`:
number of ranks.) -/
theorem C138_returns (env : Env) (S R : Nat) (rank : Nat → Tags → Nat) (hS : ∀ x, (env x).size ≤ S) (hR : ∀ x ts, rank x ts < R)
    (hrank : ∀ x ts, (env x).Needs (fun y ts' => rank y ts' < rank x ts) ts) (t : GTy) (ht : t.size ≤ S) (ro : Bool) (ts : Tags)
    (d : Bytes) : ∃ r, value env ((d.length + 1) * (S * (R + 1))) ro t ts d = some r := by
  have := value_returns hS hR hrank ((d.length + 1) * (S * (R + 1))) d.length R S ro t ts d (Nat.le_refl _) ht (Nat.le_refl _)
    (Nat.le_refl _) (needs_all (fun x ts => hR x ts) t ts) (by
      have e1 : S * (R + 1) = S * R + S := Nat.mul_succ _ _
      have e2 : (d.length + 1) * (S * R + S) = d.length * (S * R + S) + (S * R + S) := Nat.succ_mul _ _
      have e3 : S * R = R * S := Nat.mul_comm _ _
      rw [e1, e2]
      omega)
  match h : value env ((d.length + 1) * (S * (R + 1))) ro t ts d, this with
  | some r, _ => exact ⟨r, rfl⟩
  | none, hn => exact absurd rfl hn

/-- C138. Nothing panics if no array has a declared type of bytes as elements, all fields are exported and the tags are valid. -/
theorem C138_no_panic (env : Env) (hE : ∀ x, (env x).Fine env) (f : Nat) (t : GTy) (ht : t.Fine env) (ts : Tags) (d : Bytes) :
    value env f false t ts d ≠ some .panic :=
  value_no_panic hE f t ts d ht

/-- **C138 is violated** by types in which each value contains another one of such a type, without an optional pointer or a slice
between them (like `type T struct { Next *T }`): `Unmarshal` never succeeds. -/
theorem C138_infinite_violated (env : Env) (P : Nat → Tags → Prop) (hP : ∀ x ts, P x ts → (env x).Contains P ts) (x : Nat) (ts : Tags)
    (hx : P x ts) (f : Nat) (ro : Bool) (d : Bytes) (v : Val) (rest : Bytes) : value env f ro (.name x) ts d ≠ some (.ok v rest) :=
  value_never hP f ro (.name x) ts d v rest hx

/-- **C138 is violated** worse if the pointer comes first: on no input does `Unmarshal` return at all. -/
theorem C138_overflow_violated (env : Env) (x : Nat) (fs : GFields) (h : env x = .struct (.cons true none (.ptr (.name x)) fs)) (f : Nat)
    (ts : Tags) (d : Bytes) : value env f false (.name x) ts d = none := by
  have key : ∀ f ts, ts.optional = false → value env f false (.ptr (.name x)) ts d = none ∧ value env f false (.name x) ts d = none ∧
      value env f false (.struct (.cons true none (.ptr (.name x)) fs)) ts d = none := by
    intro f
    induction f with
    | zero => intro ts _; exact ⟨rfl, rfl, rfl⟩
    | succ f ih =>
      intro ts ho
      obtain ⟨-, h2, h3⟩ := ih ts ho
      refine ⟨?_, ?_, ?_⟩
      · rw [value, if_neg (by simp [ho]), if_neg (by simp), h2]; rfl
      · rw [value, h, h3]
      · have h1' : value env f false (.ptr (.name x)) {} d = none := (ih {} rfl).1
        have : fields (value env f) false (.cons true none (.ptr (.name x)) fs) d = none := by
          rw [fields, show fieldTags none = some {} from rfl]
          dsimp only
          rw [show (false || !true) = false from rfl, h1']
        rw [value, this]; rfl
  cases f with
  | zero => rfl
  | succ f =>
    rw [value, h]
    cases f with
    | zero => rfl
    | succ f =>
      have h1' : value env f false (.ptr (.name x)) {} d = none := (key f {} rfl).1
      have : fields (value env f) false (.cons true none (.ptr (.name x)) fs) d = none := by
        rw [fields, show fieldTags none = some {} from rfl]
        dsimp only
        rw [show (false || !true) = false from rfl, h1']
      rw [value, this]; rfl

/-- **C138 is violated** by arrays of declared byte types: with enough input `Unmarshal` panics (`reflect.Copy` wants equal
element types), although `Marshal` encodes them. -/
theorem C138_own_bytes_violated (env : Env) (h : Nat → HVal) (n : Nat) (ts : Tags) (f : Nat) :
    (∀ d : Bytes, n ≤ d.length → value env (f + 1) false (.byteArr true n) ts d = some .panic) ∧
    ∀ s b, marshal env h (f + 1) (.byteArr true n) (.bytes s) b ts = some (.ok (b ++ s)) := by
  refine ⟨fun d hd => ?_, fun s b => rfl⟩
  have hp : pop n d = some (d.take n, d.drop n) := by rw [pop, if_neg (by omega)]
  rw [value, hp]
  rfl

/-- **C138 is violated** by unexported fields: `Marshal` encodes them, `Unmarshal` panics on every number there. -/
theorem C138_unexported_violated (env : Env) (h : Nat → HVal) (k : NumKind) (fs : GFields) (ts : Tags) (f : Nat) :
    (∀ d : Bytes, k.size ≤ d.length → value env (f + 2) false (.struct (.cons false none (.num k) fs)) ts d = some .panic) ∧
    ∀ x b, marshal env h (f + 2) (.struct (.cons false none (.num k) .nil)) (.seq [.num x]) b ts = some (.ok (b ++ putBE k.size x)) := by
  refine ⟨fun d hd => ?_, fun x b => rfl⟩
  have hp : pop k.size d = some (d.take k.size, d.drop k.size) := by rw [pop, if_neg (by omega)]
  have hn : value env (f + 1) true (.num k) {} d = some .panic := by
    rw [value, hp]
    rfl
  rw [value, fields]
  show Option.map _ (match value env (f + 1) true (.num k) {} d with | none => none | some (.ok v d) => _ | some (.err e d) => _ | some .panic => _) = _
  rw [hn]
  rfl

/-! ## Lists -/

/-- `type List struct { Value uint8; Next *List "beserial:\"optional\"" }` -/
def listTy : GTy := .struct (.cons true none (.num .u8) (.cons true (some sOptional) (.ptr (.name 0)) .nil))

def listEnv : Env := fun x => if x = 0 then listTy else .bool

/-- The cells of a memory of such nodes. -/
def Cells (h : Nat → HVal) : Prop := ∀ p, ∃ x, x < 256 ∧ (h p = .seq [.num x, .nil] ∨ ∃ q, h p = .seq [.num x, .ref q])

/-- The list that begins at `p` has an end. -/
inductive Ends (h : Nat → HVal) : Nat → Prop where
  | last (p x) (e : h p = .seq [.num x, .nil]) : Ends h p
  | next (p x q) (e : h p = .seq [.num x, .ref q]) (hq : Ends h q) : Ends h p

theorem marshal_node (h : Nat → HVal) (f x : Nat) (n : HVal) (b : Bytes) (ts : Tags) :
    marshal listEnv h (f + 3) (.name 0) (.seq [.num x, n]) b ts =
      match marshal listEnv h (f + 1) (.ptr (.name 0)) n (b ++ putBE 1 x) { optional := true } with
      | some (.ok b) => some (.ok b)
      | r => r := by
  rfl

/-- **C138** for a list in memory: `Marshal` returns iff the list has an end (a cyclic list overflows the stack). -/
theorem C138_cyclic_violated (h : Nat → HVal) (hc : Cells h) (p : Nat) (b : Bytes) :
    (∃ f r, marshal listEnv h f (.name 0) (h p) b {} = some r) ↔ Ends h p := by
  constructor
  · rintro ⟨f, r, hf⟩
    have key : ∀ f p b ts r, marshal listEnv h f (.name 0) (h p) b ts = some r → Ends h p := by
      intro f
      induction f using Nat.strongRecOn with
      | _ f ih =>
        intro p b ts r hf
        obtain ⟨x, -, hp | ⟨q, hp⟩⟩ := hc p
        · exact .last p x hp
        · refine .next p x q hp ?_
          rw [hp] at hf
          match f, hf, ih with
          | 0, hf, _ => cases hf
          | 1, hf, _ => cases hf
          | 2, hf, _ => cases hf
          | f + 3, hf, ih =>
            rw [marshal_node, marshal] at hf
            cases hm : marshal listEnv h f (.name 0) (h q) (b ++ putBE 1 x ++ [0x01]) { optional := true } with
            | none => rw [if_pos rfl, hm] at hf; cases hf
            | some r' => exact ih f (by omega) q _ _ _ hm
    exact key f p b {} r hf
  · intro he
    have key : ∀ p, Ends h p → ∀ b ts, ∃ f r, marshal listEnv h f (.name 0) (h p) b ts = some r := by
      intro p he
      induction he with
      | last p x e => intro b ts; exact ⟨3, _, by rw [e]; rfl⟩
      | next p x q e _ ih =>
        intro b ts
        obtain ⟨f, r, hf⟩ := ih (b ++ putBE 1 x ++ [0x01]) { optional := true }
        rw [e]
        cases r with
        | ok b' => exact ⟨f + 3, .ok b', by rw [marshal_node, marshal, if_pos rfl, hf]⟩
        | err e' => exact ⟨f + 3, .ok [], by rw [marshal_node, marshal, if_pos rfl, hf]⟩
        | panic => exact ⟨f + 3, .panic, by rw [marshal_node, marshal, if_pos rfl, hf]⟩
    exact key p he b {}

/-! ## Examples -/

theorem listTag : fieldTags (some sOptional) = some { optional := true } := by decide

theorem listEnv_fine (x : Nat) : (listEnv x).Fine listEnv := by
  unfold listEnv
  split
  · simp only [listTy, GTy.Fine, GFields.Fine, listTag]
    exact ⟨trivial, rfl, trivial, trivial, rfl, trivial, trivial⟩
  · trivial

/-- The hypotheses of `C138_returns` hold of lists: one rank, since a list needs no other list. -/
example (d : Bytes) : ∃ r, value listEnv ((d.length + 1) * (4 * 2)) false (.name 0) {} d = some r := by
  refine C138_returns listEnv 4 1 (fun _ _ => 0) (fun x => ?_) (fun _ _ => by omega) (fun x ts => ?_) (.name 0) (by simp [GTy.size]) false {} d
  · unfold listEnv
    split <;> simp [listTy, GTy.size, GFields.size]
  · unfold listEnv
    split
    · simp only [listTy, GTy.Needs, GFields.Needs, listTag]
      refine ⟨fun _ _ => trivial, fun ts hts ho => ?_, trivial⟩
      cases hts
      cases ho
    · trivial

/-- A list of two in memory, its bytes, and the round trip. -/
example : ∃ f, ∀ g, f ≤ g →
    (∀ b, marshal listEnv (fun _ => .seq [.num 8, .nil]) g (.name 0) (.seq [.num 7, .ref 0]) b {} = some (.ok (b ++ [7, 1, 8, 0]))) ∧
    ∀ rest, value listEnv g false (.name 0) {} ([7, 1, 8, 0] ++ rest) = some (.ok (.seq [.num 7, .ref (.seq [.num 8, .nil])]) rest) := by
  refine C138_round_trip listEnv listEnv_fine (.name 0) trivial {} _ _ _ (.seqCons _ _ _ _ (.num 7) (.seqCons _ _ _ _
    (.ref 0 _ (.seqCons _ _ _ _ (.num 8) (.seqCons _ _ _ _ .nil .seqNil))) .seqNil)) _ ?_
  have last : Enc listEnv (.name 0) { optional := true } (.seq [.num 8, .nil]) [8, 0] :=
    .name _ _ _ _ (.struct _ _ _ _ (.cons true none (.num .u8) _ {} (.num 8) _ [8] [0] rfl (.num .u8 {} 8 (by decide))
      (.cons true _ _ _ _ .nil [] [0] [] listTag (.absent _ _ rfl) .nil)))
  exact .name _ _ _ _ (.struct _ _ _ _ (.cons true none (.num .u8) _ {} (.num 7) _ [7] [1, 8, 0] rfl (.num .u8 {} 7 (by decide))
    (.cons true _ _ _ _ (.ref _) [] [1, 8, 0] [] listTag (.present _ _ _ [8, 0] rfl last) .nil)))

/-- `type T struct { Next *T }` -/
def loopEnv : Env := fun _ => .struct (.cons true none (.ptr (.name 0)) .nil)

example (f : Nat) (d : Bytes) : value loopEnv f false (.name 0) {} d = none := C138_overflow_violated loopEnv 0 .nil rfl f {} d

/-- `type T struct { A uint8; Next *T }` fulfils the hypothesis of `C138_infinite_violated`. -/
example : ∀ x ts, x = 0 → ((fun _ => .struct (.cons true none (.num .u8) (.cons true none (.ptr (.name 0)) .nil)) : Env) x).Contains
    (fun y _ => y = 0) ts := by
  intro x ts _
  simp only [GTy.Contains, GFields.Contains]
  exact .inr (.inl ⟨{}, rfl, rfl, trivial⟩)

/-- A memory whose list at 0 has an end, and one whose list has none. -/
example : Ends (fun _ => .seq [.num 8, .nil]) 0 ∧ ¬ Ends (fun _ => .seq [.num 8, .ref 0]) 0 := by
  refine ⟨.last 0 8 rfl, ?_⟩
  have key : ∀ p, ¬ Ends (fun _ => .seq [.num 8, .ref 0]) p := by
    intro p h
    induction h with
    | last p x e => cases e
    | next p x q e _ ih => exact ih
  exact key 0

end Nimiq.Beserial.Rec
