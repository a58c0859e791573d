import Verif.Beserial.RecTotal
/-!
# C146: `Size` returns on finite values, and panics only on invalid tags
-/
namespace Nimiq.Beserial.Rec

/-- More fuel does not change a result. -/
theorem sumElems_mono {f g : HVal → Option (Out Nat)} (hfg : ∀ v r, f v = some r → g v = some r) :
    ∀ (vs : List HVal) (b : Nat) (r), sumElems f vs b = some r → sumElems g vs b = some r
  | [], b, r, hr => hr
  | v :: vs, b, r, hr => by
    rw [sumElems] at hr ⊢
    cases hf : f v with
    | none => rw [hf] at hr; cases hr
    | some o =>
      rw [hf] at hr
      rw [hfg _ _ hf]
      cases o with
      | ok b' => exact sumElems_mono hfg vs _ r hr
      | err e => exact hr
      | panic => exact hr

theorem sumFields_mono {f g : GTy → HVal → Tags → Option (Out Nat)} (hfg : ∀ t v ts r, f t v ts = some r → g t v ts = some r) :
    ∀ (fs : GFields) (vs : List HVal) (b : Nat) (r), sumFields f fs vs b = some r → sumFields g fs vs b = some r
  | .nil, _, b, r, hr => hr
  | .cons _ _ _ _, [], b, r, hr => hr
  | .cons e tag t fs, v :: vs, b, r, hr => by
    rw [sumFields] at hr ⊢
    cases ht : fieldTags tag with
    | none => rw [ht] at hr; exact hr
    | some ts =>
      rw [ht] at hr
      dsimp only at hr ⊢
      cases hf : f t v ts with
      | none => rw [hf] at hr; cases hr
      | some o =>
        rw [hf] at hr
        rw [hfg _ _ _ _ hf]
        cases o with
        | ok b' => exact sumFields_mono hfg fs vs _ r hr
        | err e => exact hr
        | panic => exact hr

theorem size_succ (env : Env) (h : Nat → HVal) : ∀ (f : Nat) (t x ts r), valueSize env h f t x ts = some r →
    valueSize env h (f + 1) t x ts = some r := by
  intro f
  induction f with
  | zero => intro t x ts r hr; cases hr
  | succ f ih =>
    intro t x ts r hr
    cases t with
    | name y => exact ih _ _ _ _ hr
    | ptr t =>
      cases x with
      | ref p =>
        rw [valueSize] at hr ⊢
        cases hm : valueSize env h f t (h p) ts with
        | none => rw [hm] at hr; cases hr
        | some o => rw [hm] at hr; rw [ih _ _ _ _ hm]; exact hr
      | _ => exact hr
    | arr n t =>
      cases x with
      | seq vs =>
        rw [valueSize] at hr ⊢
        cases hk : kindSize env t with
        | some k => rw [hk] at hr; exact hr
        | none => rw [hk] at hr; exact sumElems_mono (fun v r hr => ih _ _ _ _ hr) vs _ r hr
      | _ => exact hr
    | slice t =>
      cases x with
      | seq vs =>
        rw [valueSize] at hr ⊢
        cases hk : ts.lenTag with
        | none => rw [hk] at hr; exact hr
        | some k =>
          rw [hk] at hr
          dsimp only at hr ⊢
          cases hq : kindSize env t with
          | some q => rw [hq] at hr; exact hr
          | none => rw [hq] at hr; exact sumElems_mono (fun v r hr => ih _ _ _ _ hr) vs _ r hr
      | _ => exact hr
    | struct fs =>
      cases x with
      | seq vs => exact sumFields_mono (fun t v ts r hr => ih _ _ _ _ hr) fs vs _ r hr
      | _ => exact hr
    | num k => cases x <;> exact hr
    | bool => cases x <;> exact hr
    | str => cases x <;> exact hr
    | byteArr o n => cases x <;> exact hr
    | byteSlice => cases x <;> exact hr
    | other => cases x <;> exact hr

theorem size_mono {env : Env} {h : Nat → HVal} {f g : Nat} (hfg : f ≤ g) {t x ts r} (hr : valueSize env h f t x ts = some r) :
    valueSize env h g t x ts = some r := by
  induction hfg with
  | refl => exact hr
  | step _ ih => exact size_succ env h _ _ _ _ _ ih

/-- There is one result for all sufficient fuels. -/
theorem sizeRet_some {env : Env} {h : Nat → HVal} {t x ts} (hm : Ret fun g => valueSize env h g t x ts) :
    ∃ r f, ∀ g, f ≤ g → valueSize env h g t x ts = some r := by
  obtain ⟨f, hf⟩ := hm
  cases hr : valueSize env h f t x ts with
  | none => exact absurd hr (hf f (Nat.le_refl _))
  | some r => exact ⟨r, f, fun g hg => size_mono hg hr⟩

/-- What is needed of the values in a list. -/
def ListSizeRet (env : Env) (h : Nat → HVal) (xs : List HVal) : Prop :=
  (∀ t n, Ret fun g => sumElems (fun v => valueSize env h g t v {}) xs n) ∧
  ∀ fs n, Ret fun g => sumFields (valueSize env h g) fs xs n

theorem listSizeRet_nil (env : Env) (h : Nat → HVal) : ListSizeRet env h [] := by
  refine ⟨fun t b => .now fun g => by simp [sumElems], fun fs b => .now fun g => ?_⟩
  cases fs <;> simp [sumFields]

theorem listSizeRet_cons {env : Env} {h : Nat → HVal} {x : HVal} {xs : List HVal} (hx : ∀ t ts, Ret fun g => valueSize env h g t x ts)
    (hs : ListSizeRet env h xs) : ListSizeRet env h (x :: xs) := by
  refine ⟨fun t b => ?_, fun fs b => ?_⟩
  · obtain ⟨r, f, hf⟩ := sizeRet_some (hx t {})
    cases r with
    | ok k =>
      obtain ⟨f2, hf2⟩ := hs.1 t (b + k)
      refine ⟨max f f2, fun g hg => ?_⟩
      dsimp only
      rw [sumElems, hf g (by omega)]
      exact hf2 g (by omega)
    | err e => exact ⟨f, fun g hg => by dsimp only; rw [sumElems, hf g hg]; simp⟩
    | panic => exact ⟨f, fun g hg => by dsimp only; rw [sumElems, hf g hg]; simp⟩
  · cases fs with
    | nil => exact .now fun g => by simp [sumFields]
    | cons e tag t fs =>
      cases ht : fieldTags tag with
      | none => exact .now fun g => by rw [sumFields, ht]; simp
      | some ts =>
        obtain ⟨r, f, hf⟩ := sizeRet_some (hx t ts)
        cases r with
        | ok k =>
          obtain ⟨f2, hf2⟩ := hs.2 fs (b + k)
          refine ⟨max f f2, fun g hg => ?_⟩
          dsimp only
          rw [sumFields, ht]
          dsimp only
          rw [hf g (by omega)]
          exact hf2 g (by omega)
        | err e => exact ⟨f, fun g hg => by dsimp only; rw [sumFields, ht]; dsimp only; rw [hf g hg]; simp⟩
        | panic => exact ⟨f, fun g hg => by dsimp only; rw [sumFields, ht]; dsimp only; rw [hf g hg]; simp⟩

/-- It is enough to look at type literals. -/
theorem sizeRet_names {env : Env} (hU : ∀ x y, env x ≠ .name y) {h : Nat → HVal} {x : HVal}
    (hx : ∀ t, (∀ y, t ≠ .name y) → ∀ ts, Ret fun g => valueSize env h g t x ts) : ∀ t ts, Ret fun g => valueSize env h g t x ts := by
  intro t ts
  by_cases hn : ∃ y, t = .name y
  · obtain ⟨y, rfl⟩ := hn
    exact (hx (env y) (hU y) ts).succ fun g => rfl
  · exact hx t (fun y e => hn ⟨y, e⟩) ts

/-- A list value is done if its elements are. -/
theorem sizeRet_seq {env : Env} (hU : ∀ x y, env x ≠ .name y) {h : Nat → HVal} {xs : List HVal} (hs : ListSizeRet env h xs) :
    ∀ t ts, Ret fun g => valueSize env h g t (.seq xs) ts := by
  refine sizeRet_names hU fun t hn ts => ?_
  cases t with
  | name y => exact absurd rfl (hn y)
  | arr n t =>
    cases hq : kindSize env t with
    | some q => exact .now fun g => by rw [valueSize, hq]; simp
    | none => exact (hs.1 t 0).succ fun g => by rw [valueSize, hq]
  | slice t =>
    cases hk : ts.lenTag with
    | none => exact .now fun g => by rw [valueSize, hk]; simp
    | some k =>
      cases hq : kindSize env t with
      | some q => exact .now fun g => by rw [valueSize, hk]; dsimp only; rw [hq]; simp
      | none => exact (hs.1 t _).succ fun g => by rw [valueSize, hk]; dsimp only; rw [hq]
  | struct fs => exact (hs.2 fs 0).succ fun g => rfl
  | _ => exact .now fun g => by simp [valueSize]

theorem repr_sizeRet {env : Env} (hU : ∀ x y, env x ≠ .name y) {h : Nat → HVal} {x : HVal} {v : Val} (hr : Repr h x v) :
    (∀ t ts, Ret fun g => valueSize env h g t x ts) ∧ ∀ xs, x = .seq xs → ListSizeRet env h xs := by
  induction hr with
  | num x =>
    refine ⟨sizeRet_names hU fun t hn ts => .now fun g => ?_, fun xs e => by cases e⟩
    cases t with
    | name y => exact absurd rfl (hn y)
    | _ => simp [valueSize]
  | bool x =>
    refine ⟨sizeRet_names hU fun t hn ts => .now fun g => ?_, fun xs e => by cases e⟩
    cases t with
    | name y => exact absurd rfl (hn y)
    | _ => simp [valueSize]
  | bytes s =>
    refine ⟨sizeRet_names hU fun t hn ts => .now fun g => ?_, fun xs e => by cases e⟩
    cases t with
    | name y => exact absurd rfl (hn y)
    | str => rw [valueSize]; cases ts.lenTag <;> simp
    | byteSlice => rw [valueSize]; cases ts.lenTag <;> simp
    | _ => simp [valueSize]
  | nil =>
    refine ⟨sizeRet_names hU fun t hn ts => .now fun g => ?_, fun xs e => by cases e⟩
    cases t with
    | name y => exact absurd rfl (hn y)
    | _ => simp [valueSize]
  | ref p v hv ih =>
    refine ⟨sizeRet_names hU fun t hn ts => ?_, fun xs e => by cases e⟩
    cases t with
    | name y => exact absurd rfl (hn y)
    | ptr t =>
      obtain ⟨r, f, hf⟩ := sizeRet_some (ih.1 t ts)
      refine ⟨f + 1, fun g hg => ?_⟩
      obtain ⟨g, rfl⟩ : ∃ g', g = g' + 1 := ⟨g - 1, by omega⟩
      show valueSize env h (g + 1) (.ptr t) (.ref p) ts ≠ none
      rw [valueSize, hf g (by omega)]
      cases r <;> simp
    | _ => exact .now fun g => by simp [valueSize]
  | seqNil => exact ⟨sizeRet_seq hU (listSizeRet_nil env h), fun xs e => by cases e; exact listSizeRet_nil env h⟩
  | seqCons x xs v vs hv hs ih1 ih2 =>
    have hl := listSizeRet_cons ih1.1 (ih2.2 xs rfl)
    exact ⟨sizeRet_seq hU hl, fun ys e => by cases e; exact hl⟩

/-! ## Panics -/

theorem sumElems_no_panic {f : HVal → Option (Out Nat)} (hf : ∀ v, f v ≠ some .panic) :
    ∀ (vs : List HVal) (b : Nat), sumElems f vs b ≠ some .panic
  | [], b => by simp [sumElems]
  | v :: vs, b => by
    rw [sumElems]
    cases hv : f v with
    | none => simp
    | some o =>
      cases o with
      | ok b' => exact sumElems_no_panic hf vs _
      | err e => simp
      | panic => exact absurd hv (hf v)

theorem sumFields_no_panic {f : GTy → HVal → Tags → Option (Out Nat)} (hf : ∀ t v ts, t.TagsOk → f t v ts ≠ some .panic) :
    ∀ (fs : GFields) (_ : fs.TagsOk) (vs : List HVal) (b : Nat), sumFields f fs vs b ≠ some .panic
  | .nil, _, _, b => by simp [sumFields]
  | .cons _ _ _ _, _, [], b => by simp [sumFields]
  | .cons e tag t fs, hk, v :: vs, b => by
    rw [GFields.TagsOk] at hk
    rw [sumFields]
    cases ht : fieldTags tag with
    | none => rw [ht] at hk; cases hk.1
    | some ts =>
      dsimp only
      cases hv : f t v ts with
      | none => simp
      | some o =>
        cases o with
        | ok b' => exact sumFields_no_panic hf fs hk.2.2 vs _
        | err e => simp
        | panic => exact absurd hv (hf t v ts hk.2.1)

theorem size_no_panic {env : Env} (hE : ∀ x, (env x).TagsOk) (h : Nat → HVal) : ∀ (f : Nat) (t : GTy) (x ts), t.TagsOk →
    valueSize env h f t x ts ≠ some .panic := by
  intro f
  induction f with
  | zero => intro t x ts _; simp [valueSize]
  | succ f ih =>
    intro t x ts ht
    cases t with
    | name y => exact ih (env y) x ts (hE y)
    | ptr t =>
      rw [GTy.TagsOk] at ht
      cases x with
      | nil => rw [valueSize]; split <;> simp
      | ref p =>
        rw [valueSize]
        cases hm : valueSize env h f t (h p) ts with
        | none => simp
        | some o =>
          cases o with
          | ok b' => simp
          | err e => simp
          | panic => exact absurd hm (ih t _ _ ht)
      | _ => simp [valueSize]
    | arr n t =>
      rw [GTy.TagsOk] at ht
      cases x with
      | seq vs =>
        rw [valueSize]
        cases kindSize env t with
        | some k => simp
        | none => exact sumElems_no_panic (fun v => ih t v {} ht) vs _
      | _ => simp [valueSize]
    | slice t =>
      rw [GTy.TagsOk] at ht
      cases x with
      | seq vs =>
        rw [valueSize]
        cases ts.lenTag with
        | none => simp
        | some k =>
          dsimp only
          cases kindSize env t with
          | some k => simp
          | none => exact sumElems_no_panic (fun v => ih t v {} ht) vs _
      | _ => simp [valueSize]
    | struct fs =>
      rw [GTy.TagsOk] at ht
      cases x with
      | seq vs => exact sumFields_no_panic (fun t v ts ht => ih t v ts ht) fs ht vs _
      | _ => simp [valueSize]
    | str => cases x <;> rw [valueSize] <;> first | (cases ts.lenTag <;> simp) | simp
    | byteSlice => cases x <;> rw [valueSize] <;> first | (cases ts.lenTag <;> simp) | simp
    | _ => cases x <;> simp [valueSize]

/-! ## The property -/

/-- C146. `Size` returns on every finite value, whatever its type is, for all declarations: declared types may contain themselves.
(`hU`: a declared type stands for a type literal, as in Go.) -/
theorem C146_returns (env : Env) (hU : ∀ x y, env x ≠ .name y) (h : Nat → HVal) (x : HVal) (v : Val) (hr : Repr h x v) (t : GTy)
    (ts : Tags) : ∃ r f, ∀ g, f ≤ g → valueSize env h g t x ts = some r :=
  sizeRet_some ((repr_sizeRet hU hr).1 t ts)

/-- C146. `Size` panics on no value, finite or not, if the tags can be parsed. -/
theorem C146_no_panic (env : Env) (hE : ∀ x, (env x).TagsOk) (h : Nat → HVal) (f : Nat) (t : GTy) (ht : t.TagsOk) (x : HVal)
    (ts : Tags) : valueSize env h f t x ts ≠ some .panic :=
  size_no_panic hE h f t x ts ht

/-- The hypotheses hold of lists. -/
example : ∃ r f, ∀ g, f ≤ g → valueSize listEnv (fun _ => .seq [.num 8, .nil]) g (.name 0) (.seq [.num 7, .ref 0]) {} = some r := by
  refine C146_returns listEnv (fun x y => ?_) _ _ (.seq [.num 7, .ref (.seq [.num 8, .nil])]) ?_ _ _
  · unfold listEnv
    split <;> simp [listTy]
  · exact .seqCons _ _ _ _ (.num 7) (.seqCons _ _ _ _ (.ref 0 _ (.seqCons _ _ _ _ (.num 8) (.seqCons _ _ _ _ .nil .seqNil))) .seqNil)

end Nimiq.Beserial.Rec
