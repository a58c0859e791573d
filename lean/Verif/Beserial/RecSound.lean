import Verif.Beserial.RecSizeTotal
/-!
# C146: what `Size` says is what `Marshal` writes

Not only for the values that have a specified encoding, as in RecSize.lean, but for all values of a type: also those too long for
their length tags, or with nil where it is not allowed.
-/
namespace Nimiq.Beserial.Rec

mutual
/-- The values of a type in Go. -/
inductive HasTy (env : Env) : GTy → Val → Prop where
  | num (k x) : HasTy env (.num k) (.num x)
  | bool (b) : HasTy env .bool (.bool b)
  | str (s) : HasTy env .str (.bytes s)
  | byteSlice (s) : HasTy env .byteSlice (.bytes s)
  | byteArr (own n) (s : Bytes) (hn : s.length = n) : HasTy env (.byteArr own n) (.bytes s)
  | arr (n t vs) (h : AllTy env t vs) (hn : vs.length = n) : HasTy env (.arr n t) (.seq vs)
  | slice (t vs) (h : AllTy env t vs) : HasTy env (.slice t) (.seq vs)
  | nil (t) : HasTy env (.ptr t) .nil
  | ptr (t v) (h : HasTy env t v) : HasTy env (.ptr t) (.ref v)
  | struct (fs vs) (h : FieldsTy env fs vs) : HasTy env (.struct fs) (.seq vs)
  | name (x v) (h : HasTy env (env x) v) : HasTy env (.name x) v
  | other (v) : HasTy env .other v
inductive AllTy (env : Env) : GTy → List Val → Prop where
  | nil (t) : AllTy env t []
  | cons (t v vs) (h : HasTy env t v) (hs : AllTy env t vs) : AllTy env t (v :: vs)
inductive FieldsTy (env : Env) : GFields → List Val → Prop where
  | nil : FieldsTy env .nil []
  | cons (e tag t fs v vs) (h : HasTy env t v) (hs : FieldsTy env fs vs) : FieldsTy env (.cons e tag t fs) (v :: vs)
end

/-- Enough fuel makes `F` append `s`. -/
def Writes (F : Nat → Bytes → Option (Out Bytes)) (s : Bytes) : Prop := ∃ f, ∀ g, f ≤ g → ∀ b, F g b = some (.ok (b ++ s))

theorem Writes.succ {F G : Nat → Bytes → Option (Out Bytes)} {s : Bytes} (h : Writes F s) (he : ∀ g b, G (g + 1) b = F g b) : Writes G s := by
  obtain ⟨f, hf⟩ := h
  refine ⟨f + 1, fun g hg b => ?_⟩
  obtain ⟨g, rfl⟩ : ∃ g', g = g' + 1 := ⟨g - 1, by omega⟩
  rw [he]
  exact hf g (by omega) b

theorem Writes.now {G : Nat → Bytes → Option (Out Bytes)} {s : Bytes} (h : ∀ g b, G (g + 1) b = some (.ok (b ++ s))) : Writes G s :=
  ⟨1, fun g hg b => by
    obtain ⟨g, rfl⟩ : ∃ g', g = g' + 1 := ⟨g - 1, by omega⟩
    exact h g b⟩

/-- Numbers, under a name or not. -/
theorem kind_writes {env : Env} {h : Nat → HVal} {t : GTy} {k : Nat} (hk : kindSize env t = some k) {x : HVal} {v : Val} (ht : HasTy env t v)
    (hr : Repr h x v) : ∃ s : Bytes, s.length = k ∧ Writes (fun g b => marshal env h g t x b {}) s := by
  have num : ∀ {q : NumKind} {v : Val} {x : HVal}, HasTy env (.num q) v → Repr h x v →
      ∃ s : Bytes, s.length = q.size ∧ Writes (fun g b => marshal env h g (.num q) x b {}) s := by
    intro q v x ht hr
    cases ht
    cases hr
    exact ⟨_, putBE_length _ _, .now fun g b => rfl⟩
  cases t with
  | num q =>
    simp only [kindSize, Option.some.injEq] at hk
    subst hk
    exact num ht hr
  | name y =>
    cases ht with
    | name _ _ ht =>
      simp only [kindSize] at hk
      cases hx : env y with
      | num q =>
        rw [hx] at hk ht
        simp only [Option.some.injEq] at hk
        subst hk
        obtain ⟨s, h1, h2⟩ := num ht hr
        exact ⟨s, h1, h2.succ fun g b => by show marshal env h g (env y) x b {} = _; rw [hx]⟩
      | _ => rw [hx] at hk; cases hk
  | _ => cases hk

theorem writes_cons {env : Env} {h : Nat → HVal} {t : GTy} {x : HVal} {xs : List HVal} {s r : Bytes}
    (h1 : Writes (fun g b => marshal env h g t x b {}) s) (h2 : Writes (fun g b => putElems (fun v b => marshal env h g t v b {}) xs b) r) :
    Writes (fun g b => putElems (fun v b => marshal env h g t v b {}) (x :: xs) b) (s ++ r) := by
  obtain ⟨f1, h1⟩ := h1
  obtain ⟨f2, h2⟩ := h2
  refine ⟨max f1 f2, fun g hg b => ?_⟩
  dsimp only at h1 h2 ⊢
  rw [putElems, h1 g (by omega)]
  dsimp only
  rw [h2 g (by omega), List.append_assoc]

theorem kind_writesAll {env : Env} {h : Nat → HVal} {t : GTy} {k : Nat} (hk : kindSize env t = some k) : ∀ {xs : List HVal} {vs : List Val},
    AllTy env t vs → Repr h (.seq xs) (.seq vs) → ∃ s : Bytes, s.length = vs.length * k ∧
      Writes (fun g b => putElems (fun v b => marshal env h g t v b {}) xs b) s
  | _, _, .nil _, .seqNil => ⟨[], by simp, .now fun g b => by simp [putElems]⟩
  | _, _, .cons _ v vs ht hs, .seqCons x xs _ _ hv hr => by
    obtain ⟨s, h1, h2⟩ := kind_writes hk ht hv
    obtain ⟨r, h3, h4⟩ := kind_writesAll hk hs hr
    refine ⟨s ++ r, ?_, writes_cons h2 h4⟩
    rw [List.length_append, List.length_cons, h1, h3, Nat.succ_mul]
    omega

mutual
theorem size_sound {env : Env} {h : Nat → HVal} : ∀ {t : GTy} {v : Val}, HasTy env t v → ∀ {x : HVal}, Repr h x v → ∀ {f : Nat} {ts : Tags} {n : Nat},
    valueSize env h f t x ts = some (.ok n) → ∃ s : Bytes, s.length = n ∧ Writes (fun g b => marshal env h g t x b ts) s
  | t, v, ht, x, hr, 0, ts, n, hs => by cases hs
  | _, _, .num k y, _, .num _, f + 1, ts, n, hs => by
    cases hs
    exact ⟨_, putBE_length _ _, .now fun g b => rfl⟩
  | _, _, .bool y, _, .bool _, f + 1, ts, n, hs => by cases hs
  | _, _, .str s, _, .bytes _, f + 1, ts, n, hs => by
    rw [valueSize] at hs
    cases hk : ts.lenTag with
    | none => rw [hk] at hs; cases hs
    | some k =>
      rw [hk] at hs
      cases hs
      exact ⟨putLen k s.length ++ s, by rw [List.length_append, putLen_length], .now fun g b => by simp [marshal, hk]⟩
  | _, _, .byteSlice s, _, .bytes _, f + 1, ts, n, hs => by
    rw [valueSize] at hs
    cases hk : ts.lenTag with
    | none => rw [hk] at hs; cases hs
    | some k =>
      rw [hk] at hs
      cases hs
      exact ⟨putLen k s.length ++ s, by rw [List.length_append, putLen_length]; omega, .now fun g b => by simp [marshal, hk]⟩
  | _, _, .byteArr own m s hn, _, .bytes _, f + 1, ts, n, hs => by
    cases hs
    exact ⟨s, by omega, .now fun g b => rfl⟩
  | _, _, .arr m t vs ht hn, x, hr, f + 1, ts, n, hs => by
    obtain ⟨xs, rfl⟩ : ∃ xs, x = .seq xs := by cases hr <;> exact ⟨_, rfl⟩
    rw [valueSize] at hs
    cases hk : kindSize env t with
    | some k =>
      rw [hk] at hs
      cases hs
      obtain ⟨s, h1, h2⟩ := kind_writesAll hk ht hr
      exact ⟨s, by rw [h1, hn], h2.succ fun g b => rfl⟩
    | none =>
      rw [hk] at hs
      obtain ⟨s, h1, h2⟩ := sum_sound ht hr hs
      exact ⟨s, by omega, h2.succ fun g b => rfl⟩
  | _, _, .slice t vs ht, x, hr, f + 1, ts, n, hs => by
    obtain ⟨xs, rfl⟩ : ∃ xs, x = .seq xs := by cases hr <;> exact ⟨_, rfl⟩
    have hl := repr_length hr
    rw [valueSize] at hs
    cases hq : ts.lenTag with
    | none => rw [hq] at hs; cases hs
    | some q =>
      rw [hq] at hs
      dsimp only at hs
      have fin : ∀ {s : Bytes}, Writes (fun g b => putElems (fun v b => marshal env h g t v b {}) xs b) s →
          Writes (fun g b => marshal env h g (.slice t) (.seq xs) b ts) (putLen q xs.length ++ s) := by
        rintro s ⟨f, hf⟩
        refine ⟨f + 1, fun g hg b => ?_⟩
        obtain ⟨g, rfl⟩ : ∃ g', g = g' + 1 := ⟨g - 1, by omega⟩
        dsimp only at hf ⊢
        rw [marshal, hq]
        dsimp only
        rw [hf g (by omega), List.append_assoc]
      cases hk : kindSize env t with
      | some k =>
        rw [hk] at hs
        cases hs
        obtain ⟨s, h1, h2⟩ := kind_writesAll hk ht hr
        exact ⟨_, by rw [List.length_append, putLen_length, h1, hl], fin h2⟩
      | none =>
        rw [hk] at hs
        obtain ⟨s, h1, h2⟩ := sum_sound ht hr hs
        exact ⟨_, by rw [List.length_append, putLen_length]; omega, fin h2⟩
  | _, _, .nil t, _, .nil, f + 1, ts, n, hs => by
    rw [valueSize] at hs
    cases ho : ts.optional with
    | false => rw [ho, if_neg (by decide)] at hs; cases hs
    | true =>
      rw [ho, if_pos rfl] at hs
      cases hs
      exact ⟨[0], rfl, .now fun g b => by rw [marshal, if_pos ho]⟩
  | _, _, .ptr t v ht, _, .ref p _ hr, f + 1, ts, n, hs => by
    rw [valueSize] at hs
    cases hm : valueSize env h f t (h p) ts with
    | none => rw [hm] at hs; cases hs
    | some o =>
      rw [hm] at hs
      cases o with
      | ok k =>
        cases hs
        obtain ⟨s, h1, f2, h2⟩ := size_sound ht hr hm
        refine ⟨(if ts.optional then [0x01] else []) ++ s, ?_, f2 + 1, fun g hg b => ?_⟩
        · rw [List.length_append, h1]
          split <;> rfl
        · obtain ⟨g, rfl⟩ : ∃ g', g = g' + 1 := ⟨g - 1, by omega⟩
          dsimp only at h2 ⊢
          rw [marshal, h2 g (by omega)]
          cases ts.optional <;> simp
      | err e => cases hs
      | panic => cases hs
  | _, _, .struct fs vs ht, x, hr, f + 1, ts, n, hs => by
    obtain ⟨xs, rfl⟩ : ∃ xs, x = .seq xs := by cases hr <;> exact ⟨_, rfl⟩
    obtain ⟨s, h1, h2⟩ := fields_sound ht hr hs
    exact ⟨s, by omega, h2.succ fun g b => rfl⟩
  | _, _, .name y v ht, x, hr, f + 1, ts, n, hs => by
    obtain ⟨s, h1, h2⟩ := size_sound ht hr hs
    exact ⟨s, h1, h2.succ fun g b => rfl⟩
  | _, _, .other v, x, hr, f + 1, ts, n, hs => by cases x <;> cases hs
theorem sum_sound {env : Env} {h : Nat → HVal} : ∀ {t : GTy} {vs : List Val}, AllTy env t vs → ∀ {xs : List HVal}, Repr h (.seq xs) (.seq vs) →
    ∀ {f m n : Nat}, sumElems (fun v => valueSize env h f t v {}) xs m = some (.ok n) →
    ∃ s : Bytes, m + s.length = n ∧ Writes (fun g b => putElems (fun v b => marshal env h g t v b {}) xs b) s
  | _, _, .nil _, _, .seqNil, f, m, n, hs => by
    cases hs
    exact ⟨[], rfl, .now fun g b => by simp [putElems]⟩
  | _, _, .cons t v vs ht hts, _, .seqCons x xs _ _ hv hr, f, m, n, hs => by
    rw [sumElems] at hs
    cases hm : valueSize env h f t x {} with
    | none => rw [hm] at hs; cases hs
    | some o =>
      rw [hm] at hs
      cases o with
      | ok k =>
        obtain ⟨s, h1, h2⟩ := size_sound ht hv hm
        obtain ⟨r, h3, h4⟩ := sum_sound hts hr hs
        exact ⟨s ++ r, by rw [List.length_append]; omega, writes_cons h2 h4⟩
      | err e => cases hs
      | panic => cases hs
theorem fields_sound {env : Env} {h : Nat → HVal} : ∀ {fs : GFields} {vs : List Val}, FieldsTy env fs vs → ∀ {xs : List HVal}, Repr h (.seq xs) (.seq vs) →
    ∀ {f m n : Nat}, sumFields (valueSize env h f) fs xs m = some (.ok n) →
    ∃ s : Bytes, m + s.length = n ∧ Writes (fun g b => putFields (marshal env h g) fs xs b) s
  | _, _, .nil, _, .seqNil, f, m, n, hs => by
    cases hs
    exact ⟨[], rfl, .now fun g b => by simp [putFields]⟩
  | _, _, .cons e tag t fs v vs ht hts, _, .seqCons x xs _ _ hv hr, f, m, n, hs => by
    rw [sumFields] at hs
    cases htag : fieldTags tag with
    | none => rw [htag] at hs; cases hs
    | some ts =>
      rw [htag] at hs
      dsimp only at hs
      cases hm : valueSize env h f t x ts with
      | none => rw [hm] at hs; cases hs
      | some o =>
        rw [hm] at hs
        cases o with
        | ok k =>
          obtain ⟨s, h1, f1, h2⟩ := size_sound ht hv hm
          obtain ⟨r, h3, f2, h4⟩ := fields_sound hts hr hs
          refine ⟨s ++ r, by rw [List.length_append]; omega, max f1 f2, fun g hg b => ?_⟩
          dsimp only at h2 h4 ⊢
          rw [putFields, htag]
          dsimp only
          rw [h2 g (by omega)]
          dsimp only
          rw [h4 g (by omega), List.append_assoc]
        | err e => cases hs
        | panic => cases hs
end

/-- C146. For every declaration and every finite value of the type - too long for its length tags or not -: if `Size` returns `n`,
`Marshal` appends `n` bytes. -/
theorem C146_sound (env : Env) (h : Nat → HVal) (t : GTy) (v : Val) (ht : HasTy env t v) (x : HVal) (hr : Repr h x v) (ts : Tags)
    (f n : Nat) (hs : valueSize env h f t x ts = some (.ok n)) :
    ∃ s : Bytes, s.length = n ∧ ∃ f, ∀ g, f ≤ g → ∀ b, marshal env h g t x b ts = some (.ok (b ++ s)) :=
  size_sound ht hr hs

/-- A string of 256 bytes with a length tag of one byte: no encoding, but a size, and that many bytes are written. -/
example : HasTy listEnv .str (.bytes (List.replicate 256 7)) ∧
    valueSize listEnv (fun _ => .nil) 1 .str (.bytes (List.replicate 256 7)) { lenTag := some .u8 } = some (.ok 257) :=
  ⟨.str _, by rw [valueSize]; dsimp only; rw [List.length_replicate]; rfl⟩

/-- The list of two. -/
example : HasTy listEnv (.name 0) (.seq [.num 7, .ref (.seq [.num 8, .nil])]) :=
  .name _ _ (.struct _ _ (.cons _ _ _ _ _ _ (.num _ _) (.cons _ _ _ _ _ _ (.ptr _ _ (.name _ _ (.struct _ _ (.cons _ _ _ _ _ _ (.num _ _)
    (.cons _ _ _ _ _ _ (.nil _) .nil))))) .nil)))

end Nimiq.Beserial.Rec
