import Verif.Beserial.RecSame
/-!
# C146: `Size` of declared types

size.go over the types and memories of Rec.lean: types that refer to themselves, declared byte types, unexported fields.
-/
namespace Nimiq.Beserial.Rec
open Spec

/-- size.go:98-111 `sizeNumber(typ.Elem().Kind())`. The kind of a declared type is that of the type literal it stands for. -/
def kindSize (env : Env) : GTy → Option Nat
  | .num k => some k.size
  | .name x => match env x with
    | .num k => some k.size
    | _ => none
  | _ => none

/-- size.go:47-53, 65-71: `total += valueSize(v.Index(i), tags{})` for all elements -/
def sumElems (f : HVal → Option (Out Nat)) : List HVal → Nat → Option (Out Nat)
  | [], total => some (.ok total)
  | v :: vs, total =>
    match f v with
    | some (.ok n) => sumElems f vs (total + n)
    | r => r

/-- size.go:73-87: the fields of a struct -/
def sumFields (f : GTy → HVal → Tags → Option (Out Nat)) : GFields → List HVal → Nat → Option (Out Nat)
  | .cons _ tag t fs, v :: vs, total =>
    match fieldTags tag with
    | none => some .panic
    | some ts =>
      match f t v ts with
      | some (.ok n) => sumFields f fs vs (total + n)
      | r => r
  | _, _, total => some (.ok total)

/-- size.go:21-96 `valueSize`, with a bound on the depth of the recursion (`none`: exceeded). The last case is bools, all kinds the
package does not know, and values that do not belong to the type. -/
def valueSize (env : Env) (h : Nat → HVal) : Nat → GTy → HVal → Tags → Option (Out Nat)
  | 0, _, _, _ => none
  | f + 1, .name x, v, ts => valueSize env h f (env x) v ts
  | _ + 1, .ptr _, .nil, ts => some (if ts.optional then .ok 1 else .err .nonOptionalNil)
  | f + 1, .ptr t, .ref p, ts =>
    match valueSize env h f t (h p) ts with
    | some (.ok elem) => some (.ok ((if ts.optional then 1 else 0) + elem))
    | r => r
  | _ + 1, .byteArr _ n, .bytes _, _ => some (.ok (n * 1))
  | f + 1, .arr n t, .seq vs, _ =>
    match kindSize env t with
    | some k => some (.ok (n * k))
    | none => sumElems (fun v => valueSize env h f t v {}) vs 0
  | _ + 1, .str, .bytes s, ts =>
    match ts.lenTag with
    | none => some (.err .noLenTag)
    | some k => some (.ok (k.size + s.length))
  | _ + 1, .byteSlice, .bytes s, ts =>
    match ts.lenTag with
    | none => some (.err .noLenTag)
    | some k => some (.ok (k.size + s.length * 1))
  | f + 1, .slice t, .seq vs, ts =>
    match ts.lenTag with
    | none => some (.err .noLenTag)
    | some k =>
      match kindSize env t with
      | some s => some (.ok (k.size + vs.length * s))
      | none => sumElems (fun v => valueSize env h f t v {}) vs k.size
  | f + 1, .struct fs, .seq vs, _ => sumFields (valueSize env h f) fs vs 0
  | _ + 1, .num k, .num _, _ => some (.ok k.size)
  | _ + 1, _, _, _ => some (.err .cannotMarshal)

/-! ## Specification -/

mutual
/-- There is a bool in the value. -/
def Val.hasBool : Val → Bool
  | .bool _ => true
  | .num _ | .bytes _ | .nil => false
  | .ref v => v.hasBool
  | .seq vs => hasBools vs
def hasBools : List Val → Bool
  | [] => false
  | v :: vs => v.hasBool || hasBools vs
end

/-! ## Proofs -/

theorem kind_enc {env : Env} {t : GTy} {k : Nat} (hk : kindSize env t = some k) {ts : Tags} {v : Val} {s : Bytes} (he : Enc env t ts v s) :
    s.length = k ∧ v.hasBool = false := by
  have num : ∀ {q : NumKind} {v : Val} {s : Bytes} {ts : Tags}, Enc env (.num q) ts v s → s.length = q.size ∧ v.hasBool = false := by
    intro q v s ts h
    cases h with
    | num _ _ x hx => exact ⟨by rw [← putBE_eq_digits, putBE_length, numBytes_eq], rfl⟩
  cases t with
  | num q =>
    simp only [kindSize, Option.some.injEq] at hk
    subst hk
    exact num he
  | name x =>
    cases he with
    | name _ _ _ _ he =>
      simp only [kindSize] at hk
      cases hx : env x with
      | num q =>
        rw [hx] at hk he
        simp only [Option.some.injEq] at hk
        subst hk
        exact num he
      | _ => rw [hx] at hk; cases hk
  | _ => cases hk

theorem kind_encAll {env : Env} {t : GTy} {k : Nat} (hk : kindSize env t = some k) : ∀ {vs : List Val} {s : Bytes}, EncAll env t vs s →
    s.length = vs.length * k ∧ hasBools vs = false
  | _, _, .nil _ => ⟨by simp, rfl⟩
  | _, _, .cons _ v vs s r he hs => by
    obtain ⟨h1, h2⟩ := kind_enc hk he
    obtain ⟨h3, h4⟩ := kind_encAll hk hs
    refine ⟨?_, by rw [hasBools, h2, h4]; rfl⟩
    rw [List.length_append, List.length_cons, h1, h3, Nat.succ_mul]
    omega

/-- What `Size` returns for a value whose encoding has `n` bytes. -/
def sized (b : Bool) (n : Nat) : Out Nat := if b then .err .cannotMarshal else .ok n

mutual
theorem enc_size {env : Env} {h : Nat → HVal} : ∀ {t : GTy} {ts : Tags} {v : Val} {s : Bytes}, Enc env t ts v s → ∀ hv, Repr h hv v →
    ∃ f, ∀ g, f ≤ g → valueSize env h g t hv ts = some (sized v.hasBool s.length)
  | _, _, _, _, .num k ts x hx, _, .num _ => ⟨1, fun g hg => by
    obtain ⟨g, rfl⟩ : ∃ g', g = g' + 1 := ⟨g - 1, by omega⟩
    rw [valueSize, ← putBE_eq_digits, putBE_length, numBytes_eq]
    rfl⟩
  | _, _, _, _, .bool ts x, _, .bool _ => ⟨1, fun g hg => by
    obtain ⟨g, rfl⟩ : ∃ g', g = g' + 1 := ⟨g - 1, by omega⟩
    rfl⟩
  | _, _, _, _, .str ts p s hp, _, .bytes _ => ⟨1, fun g hg => by
    obtain ⟨g, rfl⟩ : ∃ g', g = g' + 1 := ⟨g - 1, by omega⟩
    obtain ⟨k, hk, hm, rfl⟩ := len_some hp
    rw [valueSize, hk, List.length_append, putLen_length]
    rfl⟩
  | _, _, _, _, .byteSlice ts p s hp, _, .bytes _ => ⟨1, fun g hg => by
    obtain ⟨g, rfl⟩ : ∃ g', g = g' + 1 := ⟨g - 1, by omega⟩
    obtain ⟨k, hk, hm, rfl⟩ := len_some hp
    rw [valueSize, hk, List.length_append, putLen_length]
    simp [sized, Val.hasBool]⟩
  | _, _, _, _, .byteArr own n ts s hn, _, .bytes _ => ⟨1, fun g hg => by
    obtain ⟨g, rfl⟩ : ∃ g', g = g' + 1 := ⟨g - 1, by omega⟩
    rw [valueSize, hn]
    simp [sized, Val.hasBool]⟩
  | _, _, _, _, .arr n t ts vs s he hn, hv, hr => by
    obtain ⟨xs, rfl⟩ : ∃ xs, hv = .seq xs := by cases hr <;> exact ⟨_, rfl⟩
    obtain ⟨f, hf⟩ := encAll_size he xs hr
    refine ⟨f + 1, fun g hg => ?_⟩
    obtain ⟨g, rfl⟩ : ∃ g', g = g' + 1 := ⟨g - 1, by omega⟩
    rw [valueSize, Val.hasBool]
    cases hk : kindSize env t with
    | some k =>
      obtain ⟨h1, h2⟩ := kind_encAll hk he
      dsimp only
      rw [h1, h2, hn]
      rfl
    | none =>
      dsimp only
      rw [hf g (by omega), Nat.zero_add]
  | _, _, _, _, .slice t ts p vs s hp he, hv, hr => by
    obtain ⟨xs, rfl⟩ : ∃ xs, hv = .seq xs := by cases hr <;> exact ⟨_, rfl⟩
    obtain ⟨f, hf⟩ := encAll_size he xs hr
    have hl := repr_length hr
    refine ⟨f + 1, fun g hg => ?_⟩
    obtain ⟨g, rfl⟩ : ∃ g', g = g' + 1 := ⟨g - 1, by omega⟩
    obtain ⟨k, hk, hm, rfl⟩ := len_some hp
    rw [valueSize, hk, Val.hasBool, List.length_append, putLen_length]
    dsimp only
    cases hs : kindSize env t with
    | some q =>
      obtain ⟨h1, h2⟩ := kind_encAll hs he
      dsimp only
      rw [h1, h2, hl]
      rfl
    | none =>
      dsimp only
      rw [hf g (by omega)]
  | _, _, _, _, .absent t ts ho, _, .nil => ⟨1, fun g hg => by
    obtain ⟨g, rfl⟩ : ∃ g', g = g' + 1 := ⟨g - 1, by omega⟩
    rw [valueSize, if_pos ho]
    rfl⟩
  | _, _, _, _, .present t ts v s ho he, _, .ref p _ hr => by
    obtain ⟨f, hf⟩ := enc_size he _ hr
    refine ⟨f + 1, fun g hg => ?_⟩
    obtain ⟨g, rfl⟩ : ∃ g', g = g' + 1 := ⟨g - 1, by omega⟩
    rw [valueSize, hf g (by omega), Val.hasBool, List.length_cons, if_pos ho]
    cases v.hasBool
    · simp [sized, Nat.add_comm]
    · rfl
  | _, _, _, _, .ptr t ts v s ho he, _, .ref p _ hr => by
    obtain ⟨f, hf⟩ := enc_size he _ hr
    refine ⟨f + 1, fun g hg => ?_⟩
    obtain ⟨g, rfl⟩ : ∃ g', g = g' + 1 := ⟨g - 1, by omega⟩
    rw [valueSize, hf g (by omega), Val.hasBool, if_neg (by simp [ho])]
    cases v.hasBool
    · simp [sized]
    · rfl
  | _, _, _, _, .struct fs ts vs s he, hv, hr => by
    obtain ⟨xs, rfl⟩ : ∃ xs, hv = .seq xs := by cases hr <;> exact ⟨_, rfl⟩
    obtain ⟨f, hf⟩ := encFields_size he xs hr
    refine ⟨f + 1, fun g hg => ?_⟩
    obtain ⟨g, rfl⟩ : ∃ g', g = g' + 1 := ⟨g - 1, by omega⟩
    rw [valueSize, hf g (by omega), Nat.zero_add, Val.hasBool]
  | _, _, _, _, .name x ts v s he, hv, hr => by
    obtain ⟨f, hf⟩ := enc_size he hv hr
    refine ⟨f + 1, fun g hg => ?_⟩
    obtain ⟨g, rfl⟩ : ∃ g', g = g' + 1 := ⟨g - 1, by omega⟩
    rw [valueSize, hf g (by omega)]
theorem encAll_size {env : Env} {h : Nat → HVal} : ∀ {t : GTy} {vs : List Val} {s : Bytes}, EncAll env t vs s → ∀ xs, Repr h (.seq xs) (.seq vs) →
    ∃ f, ∀ g, f ≤ g → ∀ n, sumElems (fun v => valueSize env h g t v {}) xs n = some (sized (hasBools vs) (n + s.length))
  | _, _, _, .nil _, _, .seqNil => ⟨0, fun _ _ n => rfl⟩
  | _, _, _, .cons t v vs s r he hs, _, .seqCons x xs _ _ hv hr => by
    obtain ⟨f1, h1⟩ := enc_size he x hv
    obtain ⟨f2, h2⟩ := encAll_size hs xs hr
    refine ⟨max f1 f2, fun g hg n => ?_⟩
    rw [sumElems, h1 g (by omega), hasBools]
    cases v.hasBool
    · show sumElems (fun v => valueSize env h g t v {}) xs (n + s.length) = _
      rw [h2 g (by omega), List.length_append, Nat.add_assoc]
      rfl
    · rfl
theorem encFields_size {env : Env} {h : Nat → HVal} : ∀ {fs : GFields} {vs : List Val} {s : Bytes}, EncFields env fs vs s → ∀ xs, Repr h (.seq xs) (.seq vs) →
    ∃ f, ∀ g, f ≤ g → ∀ n, sumFields (valueSize env h g) fs xs n = some (sized (hasBools vs) (n + s.length))
  | _, _, _, .nil, _, .seqNil => ⟨0, fun _ _ n => rfl⟩
  | _, _, _, .cons e tag t fs ts v vs s r ht he hs, _, .seqCons x xs _ _ hv hr => by
    obtain ⟨f1, h1⟩ := enc_size he x hv
    obtain ⟨f2, h2⟩ := encFields_size hs xs hr
    refine ⟨max f1 f2, fun g hg n => ?_⟩
    rw [sumFields, ht]
    dsimp only
    rw [h1 g (by omega), hasBools]
    cases v.hasBool
    · show sumFields (valueSize env h g) fs xs (n + s.length) = _
      rw [h2 g (by omega), List.length_append, Nat.add_assoc]
      rfl
    · rfl
end

/-! ## Against the other model -/

theorem kind_same (env : Env) (t : Ty) : kindSize env (ofTy t) = t.numSize := by cases t <;> rfl

theorem sumElems_same {α} {m : α → Val} {h : Nat → HVal} {g : α → Out Nat} {f : HVal → Option (Out Nat)}
    (hfg : ∀ x v, Repr h x (m v) → f x = some (g v)) : ∀ (vs : List α) (xs : List HVal), Repr h (.seq xs) (.seq (vs.map m)) →
    ∀ n, sumElems f xs n = some (vs.foldlM (fun total v => do return total + (← g v)) n)
  | [], _, .seqNil, n => rfl
  | v :: vs, _, .seqCons x xs _ _ hv hs, n => by
    rw [sumElems, hfg x v hv, List.foldlM_cons]
    cases g v with
    | ok k => exact sumElems_same hfg vs xs hs _
    | err e => rfl
    | panic => rfl

mutual
theorem size_same (env : Env) (h : Nat → HVal) : ∀ (t : Ty), NoCustom t = true → ∀ (f : Nat), (ofTy t).size ≤ f →
    ∀ (x : HVal) (v : t.Val), Repr h x (ofVal t v) → ∀ (ts : Tags),
    valueSize env h f (ofTy t) x ts = some (Beserial.valueSize t v ts)
  | t, hn, 0, hf => by have := size_ge (ofTy t); omega
  | .num k, hn, f + 1, hf => by
    intro x v hr ts
    cases hr
    rfl
  | .bool, hn, f + 1, hf => by
    intro x v hr ts
    cases hr
    rfl
  | .str, hn, f + 1, hf => by
    intro x v hr ts
    cases hr
    simp only [ofTy, valueSize, Beserial.valueSize]
    cases ts.lenTag <;> rfl
  | .byteSlice, hn, f + 1, hf => by
    intro x v hr ts
    cases hr
    simp only [ofTy, valueSize, Beserial.valueSize]
    cases ts.lenTag <;> rfl
  | .byteArr n, hn, f + 1, hf => by
    intro x v hr ts
    cases hr
    rfl
  | .arr n t, hn, f + 1, hf => by
    intro x v hr ts
    have hf : (ofTy t).size ≤ f := by simp only [ofTy, GTy.size] at hf; omega
    rw [ofVal] at hr
    obtain ⟨xs, rfl⟩ : ∃ xs, x = .seq xs := by
      cases hv : v.val.map (ofVal t) <;> rw [hv] at hr <;> cases hr <;> exact ⟨_, rfl⟩
    simp only [ofTy, valueSize, Beserial.valueSize, kind_same]
    cases t.numSize with
    | some k => rfl
    | none => exact sumElems_same (fun x v hr => size_same env h t hn f hf x v hr {}) v.val xs hr 0
  | .slice t, hn, f + 1, hf => by
    intro x v hr ts
    have hf : (ofTy t).size ≤ f := by simp only [ofTy, GTy.size] at hf; omega
    rw [ofVal] at hr
    obtain ⟨xs, rfl⟩ : ∃ xs, x = .seq xs := by
      cases hv : v.map (ofVal t) <;> rw [hv] at hr <;> cases hr <;> exact ⟨_, rfl⟩
    have hl : xs.length = v.length := by rw [repr_length hr, List.length_map]
    simp only [ofTy, valueSize, Beserial.valueSize, kind_same, hl]
    cases ts.lenTag with
    | none => rfl
    | some k =>
      dsimp only
      cases t.numSize with
      | some k => rfl
      | none => exact sumElems_same (fun x v hr => size_same env h t hn f hf x v hr {}) v xs hr _
  | .ptr t, hn, f + 1, hf => by
    intro x v hr ts
    have hf : (ofTy t).size ≤ f := by simp only [ofTy, GTy.size] at hf; omega
    cases v with
    | none =>
      rw [ofVal] at hr
      cases hr
      rfl
    | some v =>
      rw [ofVal] at hr
      cases hr with
      | ref p _ hv =>
        simp only [ofTy, valueSize, Beserial.valueSize]
        rw [size_same env h t hn f hf (h p) v hv ts]
        cases Beserial.valueSize t v ts <;> rfl
  | .struct fs, hn, f + 1, hf => by
    intro x v hr ts
    have hf : (ofFields fs).size ≤ f := by simp only [ofTy, GTy.size] at hf; omega
    rw [ofVal] at hr
    obtain ⟨xs, rfl⟩ : ∃ xs, x = .seq xs := by
      cases hv : ofFieldVals fs v <;> rw [hv] at hr <;> cases hr <;> exact ⟨_, rfl⟩
    simp only [ofTy, valueSize, Beserial.valueSize]
    exact sumFields_same env h fs hn f hf xs v hr 0
  | .unsupported _ _, hn, f + 1, hf => by
    intro x v hr ts
    cases hr
    rfl
  | .custom _, hn, f + 1, hf => by simp [NoCustom] at hn
theorem sumFields_same (env : Env) (h : Nat → HVal) : ∀ (fs : Fields), NoCustomFields fs = true → ∀ (f : Nat), (ofFields fs).size ≤ f →
    ∀ (xs : List HVal) (v : fs.Val), Repr h (.seq xs) (.seq (ofFieldVals fs v)) → ∀ (n : Nat),
    sumFields (valueSize env h f) (ofFields fs) xs n = some (fieldsSize fs v n)
  | .nil, hn, f, hf => by
    intro xs v hr b
    rfl
  | .cons tag t fs, hn, f, hf => by
    intro xs v hr n
    rw [NoCustomFields, Bool.and_eq_true] at hn
    simp only [ofFields, GFields.size] at hf
    rw [ofFieldVals] at hr
    cases hr with
    | seqCons x xs _ _ hv hs =>
    simp only [ofFields, sumFields, fieldsSize]
    cases fieldTags tag with
    | none => rfl
    | some ts =>
      dsimp only
      rw [size_same env h t hn.1 f (by omega) x v.1 hv ts]
      cases Beserial.valueSize t v.1 ts with
      | ok k => exact sumFields_same env h fs hn.2 f (by omega) xs v.2 hs _
      | err e => rfl
      | panic => rfl
end

/-! ## The property -/

/-- C146. For every declaration and every value that is a tree and can be encoded: `Size` returns the length of the encoding, or
fails iff there is a bool in the value. -/
theorem C146_exact_partial (env : Env) (t : GTy) (ts : Tags) (h : Nat → HVal) (x : HVal) (v : Val) (hr : Repr h x v) (s : Bytes)
    (he : Enc env t ts v s) : ∃ f, ∀ g, f ≤ g →
      valueSize env h g t x ts = some (if v.hasBool then .err .cannotMarshal else .ok s.length) :=
  enc_size he x hr

/-- C146. `Size` and `Marshal` agree: for the same values, whatever `b` already holds, `Marshal` appends as many bytes as `Size`
said. -/
theorem C146_marshal (env : Env) (t : GTy) (ts : Tags) (h : Nat → HVal) (x : HVal) (v : Val) (hr : Repr h x v) (s : Bytes)
    (he : Enc env t ts v s) (hb : v.hasBool = false) : ∃ f, ∀ g, f ≤ g → ∃ n, valueSize env h g t x ts = some (.ok n) ∧
      ∀ b, ∃ out, marshal env h g t x b ts = some (.ok out) ∧ out.length = b.length + n := by
  obtain ⟨f1, h1⟩ := enc_size he x hr
  obtain ⟨f2, h2⟩ := enc_marshal he x hr
  refine ⟨max f1 f2, fun g hg => ⟨s.length, ?_, fun b => ⟨b ++ s, h2 g (by omega) b, List.length_append⟩⟩⟩
  rw [h1 g (by omega), hb]
  rfl

/-- C146. What was decoded has the size it was read from, if there is no bool in it. -/
theorem C146_decoded (env : Env) (f : Nat) (t : GTy) (ts : Tags) (d : Bytes) (v : Val) (rest : Bytes)
    (hd : value env f false t ts d = some (.ok v rest)) (hb : v.hasBool = false) (h : Nat → HVal) (x : HVal) (hr : Repr h x v) :
    ∃ f, ∀ g, f ≤ g → ∃ n, valueSize env h g t x ts = some (.ok n) ∧ n + rest.length = d.length := by
  obtain ⟨s, rfl, he⟩ := value_enc env f false t ts d v rest hd
  obtain ⟨f1, h1⟩ := enc_size he x hr
  refine ⟨f1, fun g hg => ⟨s.length, ?_, List.length_append.symm⟩⟩
  rw [h1 g hg, hb]
  rfl

/-- C146. Without names and methods `Size` is the one of the other properties (C32, C144), for every memory with the value in it:
sizes, errors, panics. -/
theorem C146_same_size (env : Env) (h : Nat → HVal) (t : Ty) (ht : NoCustom t = true) (x : HVal) (v : t.Val) (hr : Repr h x (ofVal t v))
    (ts : Tags) : valueSize env h (ofTy t).size (ofTy t) x ts = some (Beserial.valueSize t v ts) :=
  size_same env h t ht _ (Nat.le_refl _) x v hr ts

theorem size_node (h : Nat → HVal) (f x : Nat) (n : HVal) (ts : Tags) :
    valueSize listEnv h (f + 3) (.name 0) (.seq [.num x, n]) ts =
      match valueSize listEnv h (f + 1) (.ptr (.name 0)) n { optional := true } with
      | some (.ok k) => some (.ok (0 + 1 + k))
      | r => r := by
  rfl

/-- The number of nodes of a list in memory. -/
inductive EndsIn (h : Nat → HVal) : Nat → Nat → Prop where
  | last (p x) (e : h p = .seq [.num x, .nil]) : EndsIn h p 1
  | next (p x q n) (e : h p = .seq [.num x, .ref q]) (hq : EndsIn h q n) : EndsIn h p (n + 1)

/-- **C146 is violated** by lists without an end: `Size` returns iff the list ends (a cyclic list overflows the stack), and then it is
two bytes per node. -/
theorem C146_cyclic_violated (h : Nat → HVal) (hc : Cells h) (p : Nat) (r : Out Nat) :
    (∃ f, valueSize listEnv h f (.name 0) (h p) {} = some r) ↔ ∃ n, EndsIn h p n ∧ r = .ok (2 * n) := by
  constructor
  · rintro ⟨f, hf⟩
    have key : ∀ f p ts r, valueSize listEnv h f (.name 0) (h p) ts = some r → ∃ n, EndsIn h p n ∧ r = .ok (2 * n) := by
      intro f
      induction f using Nat.strongRecOn with
      | _ f ih =>
        intro p ts r hf
        obtain ⟨x, -, hp | ⟨q, hp⟩⟩ := hc p
        · refine ⟨1, .last p x hp, ?_⟩
          rw [hp] at hf
          match f, hf with
          | 0, hf => cases hf
          | 1, hf => cases hf
          | 2, hf => cases hf
          | f + 3, hf =>
            rw [size_node, valueSize, if_pos rfl] at hf
            cases hf
            rfl
        · rw [hp] at hf
          match f, hf, ih with
          | 0, hf, _ => cases hf
          | 1, hf, _ => cases hf
          | 2, hf, _ => cases hf
          | f + 3, hf, ih =>
            rw [size_node, valueSize, if_pos rfl] at hf
            cases hm : valueSize listEnv h f (.name 0) (h q) { optional := true } with
            | none => rw [hm] at hf; cases hf
            | some r' =>
              obtain ⟨n, hn, rfl⟩ := ih f (by omega) q _ _ hm
              rw [hm] at hf
              cases hf
              exact ⟨n + 1, .next p x q n hp hn, by congr 1; omega⟩
    exact key f p {} r hf
  · rintro ⟨n, hn, rfl⟩
    have key : ∀ p n, EndsIn h p n → ∀ ts, ∃ f, valueSize listEnv h f (.name 0) (h p) ts = some (.ok (2 * n)) := by
      intro p n hn
      induction hn with
      | last p x e => intro ts; exact ⟨3, by rw [e]; rfl⟩
      | next p x q n e _ ih =>
        intro ts
        obtain ⟨f, hf⟩ := ih { optional := true }
        refine ⟨f + 3, ?_⟩
        rw [e, size_node, valueSize, if_pos rfl, hf]
        show some (Out.ok (0 + 1 + (1 + 2 * n))) = _
        congr 2
        omega
    exact key p n hn {}

/-! ## Examples -/

/-- The list of two of Rec.lean: four bytes. -/
example : ∃ f, ∀ g, f ≤ g → valueSize listEnv (fun _ => .seq [.num 8, .nil]) g (.name 0) (.seq [.num 7, .ref 0]) {} = some (.ok 4) := by
  have last : Enc listEnv (.name 0) { optional := true } (.seq [.num 8, .nil]) [8, 0] :=
    .name _ _ _ _ (.struct _ _ _ _ (.cons true none (.num .u8) _ {} (.num 8) _ [8] [0] rfl (.num .u8 {} 8 (by decide))
      (.cons true _ _ _ _ .nil [] [0] [] listTag (.absent _ _ rfl) .nil)))
  exact C146_exact_partial listEnv (.name 0) {} (fun _ => .seq [.num 8, .nil]) (.seq [.num 7, .ref 0])
    (.seq [.num 7, .ref (.seq [.num 8, .nil])]) (.seqCons _ _ _ _ (.num 7) (.seqCons _ _ _ _
    (.ref 0 _ (.seqCons _ _ _ _ (.num 8) (.seqCons _ _ _ _ .nil .seqNil))) .seqNil)) [7, 1, 8, 0]
    (.name _ _ _ _ (.struct _ _ _ _ (.cons true none (.num .u8) _ {} (.num 7) _ [7] [1, 8, 0] rfl (.num .u8 {} 7 (by decide))
      (.cons true _ _ _ _ (.ref _) [] [1, 8, 0] [] listTag (.present _ _ _ [8, 0] rfl last) .nil))))

example : EndsIn (fun p => if p = 0 then .seq [.num 8, .nil] else .seq [.num 8, .ref 0]) 1 2 := .next 1 8 0 1 rfl (.last 0 8 rfl)

/-- `[2]T` for a declared `type T uint16`: the shortcut for numbers. -/
example : valueSize (fun _ => .num .u16) (fun _ => .nil) 1 (.arr 2 (.name 0)) (.seq [.num 1, .num 2]) {} = some (.ok 4) := rfl

/-- A struct with a bool in it has an encoding but no size. -/
example : Enc listEnv (.struct (.cons true none .bool .nil)) {} (.seq [.bool true]) [1] ∧ (Val.seq [.bool true]).hasBool = true :=
  ⟨.struct _ _ _ _ (.cons true none .bool _ {} (.bool true) _ [1] [] rfl (.bool {} true) .nil), rfl⟩

end Nimiq.Beserial.Rec
