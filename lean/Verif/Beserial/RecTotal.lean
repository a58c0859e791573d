import Verif.Beserial.RecSize
/-!
# C138, C146: `Marshal` and `Size` return on finite values, and panic only on invalid tags
-/
namespace Nimiq.Beserial.Rec

/-- With enough fuel there is a result. -/
def Ret {α} (F : Nat → Option α) : Prop := ∃ f, ∀ g, f ≤ g → F g ≠ none

theorem Ret.succ {α} {F G : Nat → Option α} (h : Ret F) (he : ∀ g, G (g + 1) = F g) : Ret G := by
  obtain ⟨f, hf⟩ := h
  refine ⟨f + 1, fun g hg => ?_⟩
  obtain ⟨g, rfl⟩ : ∃ g', g = g' + 1 := ⟨g - 1, by omega⟩
  rw [he]
  exact hf g (by omega)

theorem Ret.now {α} {G : Nat → Option α} (h : ∀ g, G (g + 1) ≠ none) : Ret G :=
  ⟨1, fun g hg => by
    obtain ⟨g, rfl⟩ : ∃ g', g = g' + 1 := ⟨g - 1, by omega⟩
    exact h g⟩

/-- What is needed of the values in a list. -/
def ListRet (env : Env) (h : Nat → HVal) (xs : List HVal) : Prop :=
  (∀ t b, Ret fun g => putElems (fun v b => marshal env h g t v b {}) xs b) ∧
  ∀ fs b, Ret fun g => putFields (marshal env h g) fs xs b

theorem listRet_nil (env : Env) (h : Nat → HVal) : ListRet env h [] := by
  refine ⟨fun t b => .now fun g => by simp [putElems], fun fs b => .now fun g => ?_⟩
  cases fs <;> simp [putFields]

/-- More fuel does not change a result. -/
theorem putElems_mono {f g : HVal → Bytes → Option (Out Bytes)} (hfg : ∀ v b r, f v b = some r → g v b = some r) :
    ∀ (vs : List HVal) (b : Bytes) (r), putElems f vs b = some r → putElems g vs b = some r
  | [], b, r, hr => hr
  | v :: vs, b, r, hr => by
    rw [putElems] at hr ⊢
    cases hf : f v b with
    | none => rw [hf] at hr; cases hr
    | some o =>
      rw [hf] at hr
      rw [hfg _ _ _ hf]
      cases o with
      | ok b' => exact putElems_mono hfg vs b' r hr
      | err e => exact hr
      | panic => exact hr

theorem putFields_mono {f g : GTy → HVal → Bytes → Tags → Option (Out Bytes)}
    (hfg : ∀ t v b ts r, f t v b ts = some r → g t v b ts = some r) :
    ∀ (fs : GFields) (vs : List HVal) (b : Bytes) (r), putFields f fs vs b = some r → putFields g fs vs b = some r
  | .nil, _, b, r, hr => hr
  | .cons _ _ _ _, [], b, r, hr => hr
  | .cons e tag t fs, v :: vs, b, r, hr => by
    rw [putFields] at hr ⊢
    cases ht : fieldTags tag with
    | none => rw [ht] at hr; exact hr
    | some ts =>
      rw [ht] at hr
      dsimp only at hr ⊢
      cases hf : f t v b ts with
      | none => rw [hf] at hr; cases hr
      | some o =>
        rw [hf] at hr
        rw [hfg _ _ _ _ _ hf]
        cases o with
        | ok b' => exact putFields_mono hfg fs vs b' r hr
        | err e => exact hr
        | panic => exact hr

theorem marshal_succ (env : Env) (h : Nat → HVal) : ∀ (f : Nat) (t x b ts r), marshal env h f t x b ts = some r →
    marshal env h (f + 1) t x b ts = some r := by
  intro f
  induction f with
  | zero => intro t x b ts r hr; cases hr
  | succ f ih =>
    intro t x b ts r hr
    cases t with
    | name y => exact ih _ _ _ _ _ hr
    | ptr t =>
      cases x with
      | ref p =>
        rw [marshal] at hr ⊢
        cases hm : marshal env h f t (h p) (if ts.optional = true then b ++ [0x01] else b) ts with
        | none => rw [hm] at hr; cases hr
        | some o => rw [hm] at hr; rw [ih _ _ _ _ _ hm]; exact hr
      | _ => exact hr
    | arr n t =>
      cases x with
      | seq vs => exact putElems_mono (fun v b r hr => ih _ _ _ _ _ hr) vs b r hr
      | _ => exact hr
    | slice t =>
      cases x with
      | seq vs =>
        rw [marshal] at hr ⊢
        cases hk : ts.lenTag with
        | none => rw [hk] at hr; exact hr
        | some k => rw [hk] at hr; exact putElems_mono (fun v b r hr => ih _ _ _ _ _ hr) vs _ r hr
      | _ => exact hr
    | struct fs =>
      cases x with
      | seq vs => exact putFields_mono (fun t v b ts r hr => ih _ _ _ _ _ hr) fs vs b r hr
      | _ => exact hr
    | num k => cases x <;> exact hr
    | bool => cases x <;> exact hr
    | str => cases x <;> exact hr
    | byteArr o n => cases x <;> exact hr
    | byteSlice => cases x <;> exact hr
    | other => cases x <;> exact hr

theorem marshal_mono {env : Env} {h : Nat → HVal} {f g : Nat} (hfg : f ≤ g) {t x b ts r} (hr : marshal env h f t x b ts = some r) :
    marshal env h g t x b ts = some r := by
  induction hfg with
  | refl => exact hr
  | step _ ih => exact marshal_succ env h _ _ _ _ _ _ ih

/-- There is one result for all sufficient fuels. -/
theorem ret_some {env : Env} {h : Nat → HVal} {t x b ts} (hm : Ret fun g => marshal env h g t x b ts) :
    ∃ r f, ∀ g, f ≤ g → marshal env h g t x b ts = some r := by
  obtain ⟨f, hf⟩ := hm
  cases hr : marshal env h f t x b ts with
  | none => exact absurd hr (hf f (Nat.le_refl _))
  | some r => exact ⟨r, f, fun g hg => marshal_mono hg hr⟩

theorem listRet_cons {env : Env} {h : Nat → HVal} {x : HVal} {xs : List HVal} (hx : ∀ t b ts, Ret fun g => marshal env h g t x b ts)
    (hs : ListRet env h xs) : ListRet env h (x :: xs) := by
  refine ⟨fun t b => ?_, fun fs b => ?_⟩
  · obtain ⟨r, f, hf⟩ := ret_some (hx t b {})
    cases r with
    | ok b' =>
      obtain ⟨f2, hf2⟩ := hs.1 t b'
      refine ⟨max f f2, fun g hg => ?_⟩
      dsimp only; rw [putElems, hf g (by omega)]
      exact hf2 g (by omega)
    | err e => exact ⟨f, fun g hg => by dsimp only; rw [putElems, hf g hg]; simp⟩
    | panic => exact ⟨f, fun g hg => by dsimp only; rw [putElems, hf g hg]; simp⟩
  · cases fs with
    | nil => exact .now fun g => by simp [putFields]
    | cons e tag t fs =>
      cases ht : fieldTags tag with
      | none => exact .now fun g => by rw [putFields, ht]; simp
      | some ts =>
        obtain ⟨r, f, hf⟩ := ret_some (hx t b ts)
        cases r with
        | ok b' =>
          obtain ⟨f2, hf2⟩ := hs.2 fs b'
          refine ⟨max f f2, fun g hg => ?_⟩
          dsimp only; rw [putFields, ht]
          dsimp only
          rw [hf g (by omega)]
          exact hf2 g (by omega)
        | err e => exact ⟨f, fun g hg => by dsimp only; rw [putFields, ht]; dsimp only; rw [hf g hg]; simp⟩
        | panic => exact ⟨f, fun g hg => by dsimp only; rw [putFields, ht]; dsimp only; rw [hf g hg]; simp⟩

/-- It is enough to look at type literals. -/
theorem ret_names {env : Env} (hU : ∀ x y, env x ≠ .name y) {h : Nat → HVal} {x : HVal}
    (hx : ∀ t, (∀ y, t ≠ .name y) → ∀ b ts, Ret fun g => marshal env h g t x b ts) : ∀ t b ts, Ret fun g => marshal env h g t x b ts := by
  intro t b ts
  by_cases hn : ∃ y, t = .name y
  · obtain ⟨y, rfl⟩ := hn
    exact (hx (env y) (hU y) b ts).succ fun g => rfl
  · exact hx t (fun y e => hn ⟨y, e⟩) b ts

/-- A list value is done if its elements are. -/
theorem ret_seq {env : Env} (hU : ∀ x y, env x ≠ .name y) {h : Nat → HVal} {xs : List HVal} (hs : ListRet env h xs) :
    ∀ t b ts, Ret fun g => marshal env h g t (.seq xs) b ts := by
  refine ret_names hU fun t hn b ts => ?_
  cases t with
  | name y => exact absurd rfl (hn y)
  | arr n t => exact (hs.1 t b).succ fun g => rfl
  | slice t =>
    cases hk : ts.lenTag with
    | none => exact .now fun g => by rw [marshal, hk]; simp
    | some k => exact (hs.1 t _).succ fun g => by rw [marshal, hk]
  | struct fs => exact (hs.2 fs b).succ fun g => rfl
  | _ => exact .now fun g => by simp [marshal]

theorem repr_ret {env : Env} (hU : ∀ x y, env x ≠ .name y) {h : Nat → HVal} {x : HVal} {v : Val} (hr : Repr h x v) :
    (∀ t b ts, Ret fun g => marshal env h g t x b ts) ∧ ∀ xs, x = .seq xs → ListRet env h xs := by
  induction hr with
  | num x =>
    refine ⟨ret_names hU fun t hn b ts => .now fun g => ?_, fun xs e => by cases e⟩
    cases t with
    | name y => exact absurd rfl (hn y)
    | _ => simp [marshal]
  | bool x =>
    refine ⟨ret_names hU fun t hn b ts => .now fun g => ?_, fun xs e => by cases e⟩
    cases t with
    | name y => exact absurd rfl (hn y)
    | _ => simp [marshal]
  | bytes s =>
    refine ⟨ret_names hU fun t hn b ts => .now fun g => ?_, fun xs e => by cases e⟩
    cases t with
    | name y => exact absurd rfl (hn y)
    | str => rw [marshal]; cases ts.lenTag <;> simp
    | byteSlice => rw [marshal]; cases ts.lenTag <;> simp
    | _ => simp [marshal]
  | nil =>
    refine ⟨ret_names hU fun t hn b ts => .now fun g => ?_, fun xs e => by cases e⟩
    cases t with
    | name y => exact absurd rfl (hn y)
    | _ => simp [marshal]
  | ref p v hv ih =>
    refine ⟨ret_names hU fun t hn b ts => ?_, fun xs e => by cases e⟩
    cases t with
    | name y => exact absurd rfl (hn y)
    | ptr t =>
      obtain ⟨r, f, hf⟩ := ret_some (ih.1 t (if ts.optional then b ++ [0x01] else b) ts)
      refine ⟨f + 1, fun g hg => ?_⟩
      obtain ⟨g, rfl⟩ : ∃ g', g = g' + 1 := ⟨g - 1, by omega⟩
      show marshal env h (g + 1) (.ptr t) (.ref p) b ts ≠ none
      rw [marshal, hf g (by omega)]
      cases r <;> simp
    | _ => exact .now fun g => by simp [marshal]
  | seqNil => exact ⟨ret_seq hU (listRet_nil env h), fun xs e => by cases e; exact listRet_nil env h⟩
  | seqCons x xs v vs hv hs ih1 ih2 =>
    have hl := listRet_cons ih1.1 (ih2.2 xs rfl)
    exact ⟨ret_seq hU hl, fun ys e => by cases e; exact hl⟩

/-! ## Panics -/

mutual
/-- The tags in the type can be parsed. -/
def GTy.TagsOk : GTy → Prop
  | .arr _ t | .slice t | .ptr t => t.TagsOk
  | .struct fs => fs.TagsOk
  | _ => True
def GFields.TagsOk : GFields → Prop
  | .nil => True
  | .cons _ tag t fs => (fieldTags tag).isSome ∧ t.TagsOk ∧ fs.TagsOk
end

theorem putElems_no_panic {f : HVal → Bytes → Option (Out Bytes)} (hf : ∀ v b, f v b ≠ some .panic) :
    ∀ (vs : List HVal) (b : Bytes), putElems f vs b ≠ some .panic
  | [], b => by simp [putElems]
  | v :: vs, b => by
    rw [putElems]
    cases hv : f v b with
    | none => simp
    | some o =>
      cases o with
      | ok b' => exact putElems_no_panic hf vs b'
      | err e => simp
      | panic => exact absurd hv (hf v b)

theorem putFields_no_panic {f : GTy → HVal → Bytes → Tags → Option (Out Bytes)}
    (hf : ∀ t v b ts, t.TagsOk → f t v b ts ≠ some .panic) :
    ∀ (fs : GFields) (_ : fs.TagsOk) (vs : List HVal) (b : Bytes), putFields f fs vs b ≠ some .panic
  | .nil, _, _, b => by simp [putFields]
  | .cons _ _ _ _, _, [], b => by simp [putFields]
  | .cons e tag t fs, hk, v :: vs, b => by
    rw [GFields.TagsOk] at hk
    rw [putFields]
    cases ht : fieldTags tag with
    | none => rw [ht] at hk; cases hk.1
    | some ts =>
      dsimp only
      cases hv : f t v b ts with
      | none => simp
      | some o =>
        cases o with
        | ok b' => exact putFields_no_panic hf fs hk.2.2 vs b'
        | err e => simp
        | panic => exact absurd hv (hf t v b ts hk.2.1)

theorem marshal_no_panic {env : Env} (hE : ∀ x, (env x).TagsOk) (h : Nat → HVal) : ∀ (f : Nat) (t : GTy) (x b ts), t.TagsOk →
    marshal env h f t x b ts ≠ some .panic := by
  intro f
  induction f with
  | zero => intro t x b ts _; simp [marshal]
  | succ f ih =>
    intro t x b ts ht
    cases t with
    | name y => exact ih (env y) x b ts (hE y)
    | ptr t =>
      rw [GTy.TagsOk] at ht
      cases x with
      | nil => rw [marshal]; split <;> simp
      | ref p =>
        rw [marshal]
        cases hm : marshal env h f t (h p) (if ts.optional = true then b ++ [0x01] else b) ts with
        | none => simp
        | some o =>
          cases o with
          | ok b' => simp
          | err e => simp
          | panic => exact absurd hm (ih t _ _ _ ht)
      | _ => simp [marshal]
    | arr n t =>
      rw [GTy.TagsOk] at ht
      cases x with
      | seq vs => exact putElems_no_panic (fun v b => ih t v b {} ht) vs b
      | _ => simp [marshal]
    | slice t =>
      rw [GTy.TagsOk] at ht
      cases x with
      | seq vs =>
        rw [marshal]
        cases ts.lenTag with
        | none => simp
        | some k => exact putElems_no_panic (fun v b => ih t v b {} ht) vs _
      | _ => simp [marshal]
    | struct fs =>
      rw [GTy.TagsOk] at ht
      cases x with
      | seq vs => exact putFields_no_panic (fun t v b ts ht => ih t v b ts ht) fs ht vs b
      | _ => simp [marshal]
    | str => cases x <;> rw [marshal] <;> first | (cases ts.lenTag <;> simp) | simp
    | byteSlice => cases x <;> rw [marshal] <;> first | (cases ts.lenTag <;> simp) | simp
    | _ => cases x <;> simp [marshal]

/-! ## The property -/

/-- C138. `Marshal` returns on every finite value (a tree of pointers, cells may be shared), whatever its type is, for all
declarations: declared types may contain themselves. (`hU`: a declared type stands for a type literal, as in Go.) -/
theorem C138_marshal_returns (env : Env) (hU : ∀ x y, env x ≠ .name y) (h : Nat → HVal) (x : HVal) (v : Val) (hr : Repr h x v) (t : GTy)
    (b : Bytes) (ts : Tags) : ∃ r f, ∀ g, f ≤ g → marshal env h g t x b ts = some r :=
  ret_some ((repr_ret hU hr).1 t b ts)

/-- C138. `Marshal` panics on no value, finite or not, if the tags can be parsed. -/
theorem C138_marshal_no_panic (env : Env) (hE : ∀ x, (env x).TagsOk) (h : Nat → HVal) (f : Nat) (t : GTy) (ht : t.TagsOk) (x : HVal)
    (b : Bytes) (ts : Tags) : marshal env h f t x b ts ≠ some .panic :=
  marshal_no_panic hE h f t x b ts ht

/-- The hypotheses hold of lists (and of a memory in which every node is the last one). -/
example : (∀ x y, listEnv x ≠ .name y) ∧ (∀ x, (listEnv x).TagsOk) ∧
    Repr (fun _ => .seq [.num 8, .nil]) (.ref 3) (.ref (.seq [.num 8, .nil])) := by
  refine ⟨fun x y => ?_, fun x => ?_, .ref _ _ (.seqCons _ _ _ _ (.num _) (.seqCons _ _ _ _ .nil .seqNil))⟩
  · unfold listEnv
    split <;> simp [listTy]
  · unfold listEnv
    split
    · simp only [listTy, GTy.TagsOk, GFields.TagsOk, listTag]
      exact ⟨rfl, trivial, rfl, trivial, trivial⟩
    · trivial

end Nimiq.Beserial.Rec
