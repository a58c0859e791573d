import Verif.Beserial.Proofs
/-!
# Round trips
-/
namespace Nimiq.Beserial
open Spec

theorem customEnc_none {t : Ty} (h : isCustom t = false) : t.customEnc = none := by
  cases t <;> simp_all [isCustom, Ty.customEnc]

theorem customDec_none {t : Ty} (h : isCustom t = false) : t.customDec = none := by
  cases t <;> simp_all [isCustom, Ty.customDec]

theorem len_some {ts : Tags} {n : Nat} {bs : Bytes} (h : len ts n = some bs) :
    ∃ k, ts.lenTag = some k ∧ n ≤ maxLen k ∧ bs = putLen k n := by
  unfold len at h
  cases hk : ts.lenTag with
  | none => simp [hk] at h
  | some k =>
    simp only [hk] at h
    by_cases hn : n ≤ maxLen k
    · rw [if_pos hn] at h
      exact ⟨k, rfl, hn, by rw [putLen, putBE_eq_digits]; exact (Option.some.inj h).symm⟩
    · rw [if_neg hn] at h; cases h

theorem len_intro {ts : Tags} {k : LenKind} {n : Nat} (hk : ts.lenTag = some k) (hn : n ≤ maxLen k) :
    len ts n = some (putLen k n) := by
  unfold len; rw [hk]; simp only [lenBytes_eq, if_pos hn, putLen, putBE_eq_digits]

theorem all_cons {α} {f : α → Option Bytes} {x : α} {xs : List α} {bs : Bytes} (h : all f (x :: xs) = some bs) :
    ∃ a b, f x = some a ∧ all f xs = some b ∧ bs = a ++ b := by
  simp only [all, Option.bind_eq_bind, Option.bind_eq_some_iff] at h
  obtain ⟨a, ha, b, hb, h⟩ := h
  exact ⟨a, b, ha, hb, (Option.some.inj h).symm⟩

theorem foldlM_all {α} {f : α → Option Bytes} {g : Bytes → α → Out Bytes}
    (l : List α) (h : ∀ x ∈ l, ∀ bs b, f x = some bs → g b x = .ok (b ++ bs)) :
    ∀ (bs b : Bytes), all f l = some bs → l.foldlM g b = .ok (b ++ bs) := by
  induction l with
  | nil => intro bs b e; simp only [all, Option.some.injEq] at e; subst e; simp [List.foldlM]
  | cons x xs ih =>
    intro bs b e
    obtain ⟨a, c, ha, hc, rfl⟩ := all_cons e
    rw [List.foldlM_cons, h x (by simp) a b ha, Out.bind_ok,
      ih (fun y hy => h y (by simp [hy])) c (b ++ a) hc, List.append_assoc]

mutual
/-- Marshal appends the specified encoding. -/
theorem marshal_spec : ∀ (t : Ty) (ts : Tags) (v : t.Val) (bs b : Bytes), Good t → enc t ts v = some bs →
    marshal t v b ts = .ok (b ++ bs)
  | .num k, ts, v, bs, b, _, h => by
    simp only [enc, Option.some.injEq] at h
    subst h
    simp only [marshal, putNum_eq]
  | .bool, ts, v, bs, b, _, h => by
    simp only [enc, Option.some.injEq] at h
    subst h; simp only [marshal]
  | .str, ts, v, bs, b, _, h => by
    simp only [enc, Option.bind_eq_bind, Option.bind_eq_some_iff] at h
    obtain ⟨l, hl, h⟩ := h
    obtain ⟨k, hk, _, rfl⟩ := len_some hl
    cases h
    simp only [marshal, hk, List.append_assoc]
  | .byteArr n, ts, v, bs, b, _, h => by
    simp only [enc, Option.some.injEq] at h
    subst h; simp only [marshal]
  | .byteSlice, ts, v, bs, b, _, h => by
    simp only [enc, Option.bind_eq_bind, Option.bind_eq_some_iff] at h
    obtain ⟨l, hl, h⟩ := h
    obtain ⟨k, hk, _, rfl⟩ := len_some hl
    cases h
    simp only [marshal, hk, List.append_assoc]
  | .arr n t, ts, v, bs, b, hg, h => by
    simp only [enc] at h
    simp only [Good] at hg
    simp only [marshal]
    exact foldlM_all v.val (fun x _ bs b hx => marshal_spec t {} x bs b hg hx) bs b h
  | .slice t, ts, v, bs, b, hg, h => by
    simp only [enc, Option.bind_eq_bind, Option.bind_eq_some_iff] at h
    simp only [Good] at hg
    obtain ⟨l, hl, c, hc, h⟩ := h
    obtain ⟨k, hk, _, rfl⟩ := len_some hl
    cases h
    simp only [marshal, hk]
    rw [foldlM_all v (fun x _ bs b hx => marshal_spec t {} x bs b hg.1 hx) c _ hc, List.append_assoc]
  | .ptr t, ts, v, bs, b, hg, h => by
    simp only [Good] at hg
    simp only [enc, hg.2, Bool.false_eq_true, if_false] at h
    simp only [marshal, customEnc_none hg.2]
    cases v with
    | none =>
      by_cases ho : ts.optional
      · simp only [ho, if_true, Option.some.injEq] at h ⊢; subst h; rfl
      · simp [ho] at h
    | some x =>
      by_cases ho : ts.optional
      · simp only [ho, if_true, Option.bind_eq_bind, Option.bind_eq_some_iff] at h ⊢
        obtain ⟨c, hc, h⟩ := h
        cases h
        rw [marshal_spec t ts x c _ hg.1 hc]
        simp
      · simp only [ho, if_false, Bool.false_eq_true] at h ⊢
        rw [marshal_spec t ts x bs _ hg.1 h]
  | .struct fs, ts, v, bs, b, hg, h => by
    simp only [Good] at hg
    simp only [enc] at h
    simp only [marshal]
    exact marshalFields_spec fs v bs b hg h
  | .custom c, ts, v, bs, b, hg, h => by
    simp only [Good] at hg
    simp only [enc] at h
    simp only [marshal]
    exact hg.enc v bs b h
  | .unsupported α z, ts, v, bs, b, hg, h => by simp [enc] at h
theorem marshalFields_spec : ∀ (fs : Fields) (v : fs.Val) (bs b : Bytes), GoodFields fs → encFields fs v = some bs →
    marshalFields fs v b = .ok (b ++ bs)
  | .nil, v, bs, b, _, h => by
    simp only [encFields, Option.some.injEq] at h
    subst h; simp [marshalFields]
  | .cons tag t fs, v, bs, b, hg, h => by
    simp only [GoodFields] at hg
    simp only [encFields, Option.bind_eq_bind, Option.bind_eq_some_iff] at h
    obtain ⟨ts, hts, a, ha, c, hc, h⟩ := h
    cases h
    simp only [marshalFields, hts]
    rw [marshal_spec t ts v.1 a b hg.1 ha]
    simp only
    rw [marshalFields_spec fs v.2 c _ hg.2 hc, List.append_assoc]
end

/-! ## Lower bound on sizes -/

theorem all_min {α} {f : α → Option Bytes} {m : Nat} (l : List α) (h : ∀ x ∈ l, ∀ bs, f x = some bs → m ≤ bs.length) :
    ∀ bs, all f l = some bs → l.length * m ≤ bs.length := by
  induction l with
  | nil => intro bs _; simp
  | cons x xs ih =>
    intro bs e
    obtain ⟨a, c, ha, hc, rfl⟩ := all_cons e
    have h1 := h x (by simp) a ha
    have h2 := ih (fun y hy => h y (by simp [hy])) c hc
    rw [List.length_cons, Nat.add_mul, List.length_append]; omega

theorem putLen_length (k : LenKind) (n : Nat) : (putLen k n).length = k.size := putBE_length _ _

mutual
theorem enc_min : ∀ (t : Ty) (ts : Tags) (v : t.Val) (bs : Bytes), Good t → enc t ts v = some bs →
    minSize t ts ≤ bs.length
  | .num k, ts, v, bs, _, h => by
    simp only [enc, Option.some.injEq] at h
    subst h
    simp only [minSize, numBytes_eq, num_length, Nat.le_refl]
  | .bool, ts, v, bs, _, h => by
    simp only [enc, Option.some.injEq] at h
    subst h; simp [minSize]
  | .str, ts, v, bs, _, h => by
    simp only [enc, Option.bind_eq_bind, Option.bind_eq_some_iff] at h
    obtain ⟨l, hl, h⟩ := h
    obtain ⟨k, hk, _, rfl⟩ := len_some hl
    cases h
    simp [minSize, hk, putLen_length]
  | .byteArr n, ts, v, bs, _, h => by
    simp only [enc, Option.some.injEq] at h
    subst h; simp [minSize, v.property]
  | .byteSlice, ts, v, bs, _, h => by
    simp only [enc, Option.bind_eq_bind, Option.bind_eq_some_iff] at h
    obtain ⟨l, hl, h⟩ := h
    obtain ⟨k, hk, _, rfl⟩ := len_some hl
    cases h
    simp [minSize, hk, putLen_length]
  | .arr n t, ts, v, bs, hg, h => by
    simp only [enc] at h
    simp only [Good] at hg
    simp only [minSize]
    have := all_min v.val (fun x _ bs hx => enc_min t {} x bs hg hx) bs h
    rw [v.property] at this
    exact this
  | .slice t, ts, v, bs, hg, h => by
    simp only [enc, Option.bind_eq_bind, Option.bind_eq_some_iff] at h
    obtain ⟨l, hl, c, hc, h⟩ := h
    obtain ⟨k, hk, _, rfl⟩ := len_some hl
    cases h
    simp [minSize, hk, putLen_length]
  | .ptr t, ts, v, bs, hg, h => by
    simp only [Good] at hg
    simp only [enc, hg.2, Bool.false_eq_true, if_false] at h
    simp only [minSize]
    cases v with
    | none =>
      by_cases ho : ts.optional
      · simp only [ho, if_true, Option.some.injEq] at h ⊢; subst h; simp
      · simp [ho] at h
    | some x =>
      by_cases ho : ts.optional
      · simp only [ho, if_true, Option.bind_eq_bind, Option.bind_eq_some_iff] at h ⊢
        obtain ⟨c, hc, h⟩ := h
        cases h
        simp
      · simp only [ho, if_false, Bool.false_eq_true] at h ⊢
        exact enc_min t ts x bs hg.1 h
  | .struct fs, ts, v, bs, hg, h => by
    simp only [Good] at hg
    simp only [enc] at h
    simp only [minSize]
    exact encFields_min fs v bs hg h
  | .custom c, ts, v, bs, hg, h => by
    simp only [Good] at hg
    simp only [enc] at h
    simp only [minSize]
    exact hg.min v bs h
  | .unsupported α z, ts, v, bs, hg, h => by simp [enc] at h
theorem encFields_min : ∀ (fs : Fields) (v : fs.Val) (bs : Bytes), GoodFields fs → encFields fs v = some bs →
    minFields fs ≤ bs.length
  | .nil, v, bs, _, h => by simp [minFields]
  | .cons tag t fs, v, bs, hg, h => by
    simp only [GoodFields] at hg
    simp only [encFields, Option.bind_eq_bind, Option.bind_eq_some_iff] at h
    obtain ⟨ts, hts, a, ha, c, hc, h⟩ := h
    cases h
    have h1 := enc_min t ts v.1 a hg.1 ha
    have h2 := encFields_min fs v.2 c hg.2 hc
    simp only [minFields, hts, List.length_append]
    omega
end

/-! ## Decoding what was encoded -/

theorem pop_append {n : Nat} {a rest : Bytes} (h : a.length = n) : pop n (a ++ rest) = some (a, rest) := by
  subst h
  simp [pop]

theorem BArr.copy_self {n : Nat} (v : BArr n) : BArr.copy n v.val = v := by
  apply Subtype.ext
  simp [BArr.copy, v.property, List.take_of_length_le]

theorem maxLen_lt (k : LenKind) : maxLen k < 256 ^ k.size ∧ maxLen k ≤ maxInt := by
  cases k <;> simp [maxLen, LenKind.size, maxInt]

theorem readLen_spec {ts : Tags} {k : LenKind} {n : Nat} {rest : Bytes} (hk : ts.lenTag = some k) (hn : n ≤ maxLen k) :
    readLen ts (putLen k n ++ rest) = .ok n rest := by
  have hm := maxLen_lt k
  have hb : getBE (putLen k n) = n := getBE_putBE_of_lt (by omega)
  simp only [readLen, hk, pop_append (putLen_length k n), hb]
  rw [if_neg (by omega)]

theorem decLoop_spec {α} {f : α → Option Bytes} {g : α → Bytes → Res α} (l : List α)
    (h : ∀ x ∈ l, ∀ bs p rest, f x = some bs → g p (bs ++ rest) = .ok x rest) :
    ∀ (prev : List α) (bs rest : Bytes) (hl : l.length = prev.length), all f l = some bs →
      decLoop g prev (bs ++ rest) = .ok ⟨l, hl⟩ rest := by
  induction l with
  | nil =>
    intro prev bs rest hl e
    cases prev with
    | nil => simp only [all, Option.some.injEq] at e; subst e; rfl
    | cons => simp at hl
  | cons x xs ih =>
    intro prev bs rest hl e
    obtain ⟨a, c, ha, hc, rfl⟩ := all_cons e
    cases prev with
    | nil => simp at hl
    | cons p prev =>
      simp only [decLoop, List.append_assoc, h x (by simp) a p (c ++ rest) ha]
      rw [ih (fun y hy => h y (by simp [hy])) prev c rest (by simpa using hl) hc]

mutual
/-- Decoding reads the specified encoding back, in front of any data and into any variable. -/
theorem decode_spec (lim : Nat → Bool) (hlim : ∀ n, lim n = true) : ∀ (t : Ty) (ts : Tags) (v prev : t.Val)
    (bs rest : Bytes), Good t → enc t ts v = some bs → decode lim t prev ts (bs ++ rest) = .ok v rest
  | .num k, ts, v, prev, bs, rest, _, h => by
    simp only [enc, Option.some.injEq] at h
    subst h
    simp only [decode, pop_append (num_length k v)]
    rw [← putNum_eq, getNum_putNum]
  | .bool, ts, v, prev, bs, rest, _, h => by
    simp only [enc, Option.some.injEq] at h
    subst h
    cases v <;> simp [decode, pop]
  | .str, ts, v, prev, bs, rest, _, h => by
    simp only [enc, Option.bind_eq_bind, Option.bind_eq_some_iff] at h
    obtain ⟨l, hl, h⟩ := h
    obtain ⟨k, hk, hn, rfl⟩ := len_some hl
    cases h
    simp only [decode, List.append_assoc, readLen_spec hk hn, pop_append]
  | .byteArr n, ts, v, prev, bs, rest, _, h => by
    simp only [enc, Option.some.injEq] at h
    subst h
    simp only [decode, pop_append v.property, BArr.copy_self]
  | .byteSlice, ts, v, prev, bs, rest, _, h => by
    simp only [enc, Option.bind_eq_bind, Option.bind_eq_some_iff] at h
    obtain ⟨l, hl, h⟩ := h
    obtain ⟨k, hk, hn, rfl⟩ := len_some hl
    cases h
    simp only [decode, List.append_assoc, readLen_spec hk hn, pop_append, hlim, if_true]
  | .arr n t, ts, v, prev, bs, rest, hg, h => by
    simp only [enc] at h
    simp only [Good] at hg
    simp only [decode]
    rw [decLoop_spec v.val (fun x _ bs p rest hx => decode_spec lim hlim t {} x p bs rest hg hx) prev.val bs rest
      (by rw [v.property, prev.property]) h]
  | .slice t, ts, v, prev, bs, rest, hg, h => by
    simp only [enc, Option.bind_eq_bind, Option.bind_eq_some_iff] at h
    simp only [Good] at hg
    obtain ⟨l, hl, c, hc, h⟩ := h
    obtain ⟨k, hk, hn, rfl⟩ := len_some hl
    cases h
    have hmin := all_min (m := 1) v
      (fun x _ bs hx => Nat.le_trans hg.2 (enc_min t {} x bs hg.1 hx)) c hc
    simp only [decode, List.append_assoc, readLen_spec hk hn, hlim, if_true]
    rw [if_neg (by simp only [List.length_append]; omega)]
    rw [decLoop_spec v (fun x _ bs p rest hx => decode_spec lim hlim t {} x p bs rest hg.1 hx) _ c rest (by simp) hc]
    rfl
  | .ptr t, ts, v, prev, bs, rest, hg, h => by
    simp only [Good] at hg
    simp only [enc, hg.2, Bool.false_eq_true, if_false] at h
    simp only [decode, customDec_none hg.2]
    cases v with
    | none =>
      by_cases ho : ts.optional
      · simp only [ho, if_true, Option.some.injEq] at h ⊢; subst h; simp [pop]
      · simp [ho] at h
    | some x =>
      by_cases ho : ts.optional
      · simp only [ho, if_true, Option.bind_eq_bind, Option.bind_eq_some_iff] at h ⊢
        obtain ⟨c, hc, h⟩ := h
        cases h
        simp only [pop, List.cons_append, List.length_cons, List.take_succ_cons, List.take_zero, List.drop_succ_cons,
          List.drop_zero]
        rw [if_neg (by omega)]
        simp only [List.cons.injEq, and_true]
        rw [decode_spec lim hlim t ts x t.zero c rest hg.1 hc]
        simp [Res.map]
      · simp only [ho, if_false, Bool.false_eq_true] at h ⊢
        rw [decode_spec lim hlim t ts x t.zero bs rest hg.1 h]; rfl
  | .struct fs, ts, v, prev, bs, rest, hg, h => by
    simp only [Good] at hg
    simp only [enc] at h
    simp only [decode]
    exact decodeFields_spec lim hlim fs v prev bs rest hg h
  | .custom c, ts, v, prev, bs, rest, hg, h => by
    simp only [Good] at hg
    simp only [enc] at h
    simp only [decode, runCustom, hg.dec prev v bs rest h]
    rw [if_neg (by simp)]
    simp
  | .unsupported α z, ts, v, prev, bs, rest, hg, h => by simp [enc] at h
theorem decodeFields_spec (lim : Nat → Bool) (hlim : ∀ n, lim n = true) : ∀ (fs : Fields) (v prev : fs.Val)
    (bs rest : Bytes), GoodFields fs → encFields fs v = some bs → decodeFields lim fs prev (bs ++ rest) = .ok v rest
  | .nil, v, prev, bs, rest, _, h => by
    simp only [encFields, Option.some.injEq] at h
    subst h; rfl
  | .cons tag t fs, v, prev, bs, rest, hg, h => by
    simp only [GoodFields] at hg
    simp only [encFields, Option.bind_eq_bind, Option.bind_eq_some_iff] at h
    obtain ⟨ts, hts, a, ha, c, hc, h⟩ := h
    cases h
    simp only [decodeFields, hts, List.append_assoc]
    rw [decode_spec lim hlim t ts v.1 prev.1 a (c ++ rest) hg.1 ha]
    simp only
    rw [decodeFields_spec lim hlim fs v.2 prev.2 c rest hg.2 hc]
    rfl
end

/-! ## What is decoded was encoded -/

theorem pop_some {n : Nat} {d a rest : Bytes} (h : pop n d = some (a, rest)) : a.length = n ∧ d = a ++ rest := by
  unfold pop at h
  split at h
  · cases h
  · simp only [Option.some.injEq, Prod.mk.injEq] at h
    obtain ⟨rfl, rfl⟩ := h
    rw [List.length_take]
    exact ⟨by omega, by simp⟩

theorem putBE_getBE' {n : Nat} {b : Bytes} (h : b.length = n) : putBE n (getBE b) = b := by
  subst h; exact putBE_getBE b

theorem readLen_ok {ts : Tags} {d rest : Bytes} {n : Nat} (h : readLen ts d = .ok n rest) :
    ∃ k, ts.lenTag = some k ∧ n ≤ maxLen k ∧ d = putLen k n ++ rest := by
  unfold readLen at h
  cases hk : ts.lenTag with
  | none => simp [hk] at h
  | some k =>
    simp only [hk] at h
    cases hp : pop k.size d with
    | none => simp [hp] at h
    | some p =>
      obtain ⟨b, d'⟩ := p
      obtain ⟨hlen, rfl⟩ := pop_some hp
      simp only [hp] at h
      by_cases hb : getBE b > maxInt
      · rw [if_pos hb] at h; cases h
      · rw [if_neg hb] at h
        cases h
        refine ⟨k, rfl, ?_, by rw [putLen, putBE_getBE' hlen]⟩
        have := getBE_lt b
        rw [hlen] at this
        cases k <;> simp only [maxLen, LenKind.size, maxInt] at * <;> omega

theorem decLoop_ok {α} {f : α → Option Bytes} {g : α → Bytes → Res α}
    (h : ∀ x p d rest, g p d = .ok x rest → ∃ bs, f x = some bs ∧ d = bs ++ rest) :
    ∀ (prev : List α) (d rest : Bytes) l, decLoop g prev d = .ok l rest → ∃ bs, all f l.val = some bs ∧ d = bs ++ rest := by
  intro prev
  induction prev with
  | nil =>
    intro d rest l e
    simp only [decLoop, Res.ok.injEq] at e
    obtain ⟨rfl, rfl⟩ := e
    exact ⟨[], rfl, rfl⟩
  | cons p prev ih =>
    intro d rest l e
    simp only [decLoop] at e
    cases hg : g p d with
    | err e' d' => simp [hg] at e
    | panic => simp [hg] at e
    | ok v d' =>
      simp only [hg] at e
      cases hl : decLoop g prev d' with
      | err e' d' => simp [hl] at e
      | panic => simp [hl] at e
      | ok l' d'' =>
        simp only [hl, Res.ok.injEq] at e
        obtain ⟨rfl, rfl⟩ := e
        obtain ⟨a, ha, rfl⟩ := h _ _ _ _ hg
        obtain ⟨c, hc, rfl⟩ := ih _ _ _ hl
        exact ⟨a ++ c, by simp [all, ha, hc], by simp⟩

theorem Res.map_ok {α β} {f : α → β} {x : Res α} {v : β} {r : Bytes} (h : x.map f = .ok v r) :
    ∃ a, x = .ok a r ∧ f a = v := by
  cases x with
  | ok a r' => simp only [Res.map, Res.ok.injEq] at h; exact ⟨a, by rw [h.2], h.1⟩
  | err e r' => simp [Res.map] at h
  | panic => simp [Res.map] at h

mutual
/-- Whatever decodes was an encoding of the result. -/
theorem decode_canon (lim : Nat → Bool) : ∀ (t : Ty) (ts : Tags) (v prev : t.Val) (d rest : Bytes), Good t →
    decode lim t prev ts d = .ok v rest → ∃ bs, enc t ts v = some bs ∧ d = bs ++ rest
  | .num k, ts, v, prev, d, rest, _, h => by
    simp only [decode] at h
    cases hp : pop k.size d with
    | none => simp [hp] at h
    | some p =>
      obtain ⟨b, d'⟩ := p
      obtain ⟨hlen, rfl⟩ := pop_some hp
      simp only [hp, Res.ok.injEq] at h
      obtain ⟨rfl, rfl⟩ := h
      exact ⟨b, by simp only [enc, ← putNum_eq, putNum_getNum k b hlen], rfl⟩
  | .bool, ts, v, prev, d, rest, _, h => by
    simp only [decode] at h
    cases hp : pop 1 d with
    | none => simp [hp] at h
    | some p =>
      obtain ⟨b, d'⟩ := p
      obtain ⟨hlen, rfl⟩ := pop_some hp
      simp only [hp] at h
      by_cases h0 : b = [0]
      · rw [if_pos h0] at h
        simp only [Res.ok.injEq] at h
        obtain ⟨rfl, rfl⟩ := h
        exact ⟨b, by simp [enc, h0], rfl⟩
      · rw [if_neg h0] at h
        by_cases h1 : b = [1]
        · rw [if_pos h1] at h
          simp only [Res.ok.injEq] at h
          obtain ⟨rfl, rfl⟩ := h
          exact ⟨b, by simp [enc, h1], rfl⟩
        · rw [if_neg h1] at h; cases h
  | .str, ts, v, prev, d, rest, _, h => by
    simp only [decode] at h
    cases hr : readLen ts d with
    | err e d' => simp [hr] at h
    | panic => simp [hr] at h
    | ok u d' =>
      obtain ⟨k, hk, hn, rfl⟩ := readLen_ok hr
      simp only [hr] at h
      cases hp : pop u d' with
      | none => simp [hp] at h
      | some p =>
        obtain ⟨b, d''⟩ := p
        obtain ⟨rfl, rfl⟩ := pop_some hp
        simp only [hp, Res.ok.injEq] at h
        obtain ⟨rfl, rfl⟩ := h
        exact ⟨putLen k b.length ++ b, by simp [enc, len_intro hk hn], by simp⟩
  | .byteArr n, ts, v, prev, d, rest, _, h => by
    simp only [decode] at h
    cases hp : pop n d with
    | none => simp [hp] at h
    | some p =>
      obtain ⟨b, d'⟩ := p
      obtain ⟨hlen, rfl⟩ := pop_some hp
      simp only [hp, Res.ok.injEq] at h
      obtain ⟨rfl, rfl⟩ := h
      refine ⟨b, ?_, rfl⟩
      simp [enc, BArr.copy, hlen, List.take_of_length_le]
  | .byteSlice, ts, v, prev, d, rest, _, h => by
    simp only [decode] at h
    cases hr : readLen ts d with
    | err e d' => simp [hr] at h
    | panic => simp [hr] at h
    | ok u d' =>
      obtain ⟨k, hk, hn, rfl⟩ := readLen_ok hr
      simp only [hr] at h
      cases hp : pop u d' with
      | none => simp [hp] at h
      | some p =>
        obtain ⟨b, d''⟩ := p
        obtain ⟨rfl, rfl⟩ := pop_some hp
        simp only [hp] at h
        by_cases hl : lim b.length
        · rw [if_pos hl] at h
          simp only [Res.ok.injEq] at h
          obtain ⟨rfl, rfl⟩ := h
          exact ⟨putLen k b.length ++ b, by simp [enc, len_intro hk hn], by simp⟩
        · rw [if_neg hl] at h; cases h
  | .arr n t, ts, v, prev, d, rest, hg, h => by
    simp only [Good] at hg
    simp only [decode] at h
    cases hl : decLoop (fun p d => decode lim t p {} d) prev.val d with
    | err e d' => simp [hl] at h
    | panic => simp [hl] at h
    | ok l d' =>
      simp only [hl, Res.ok.injEq] at h
      obtain ⟨rfl, rfl⟩ := h
      simp only [enc]
      exact decLoop_ok (fun x p d rest hx => decode_canon lim t {} x p d rest hg hx) _ _ _ _ hl
  | .slice t, ts, v, prev, d, rest, hg, h => by
    simp only [Good] at hg
    simp only [decode] at h
    cases hr : readLen ts d with
    | err e d' => simp [hr] at h
    | panic => simp [hr] at h
    | ok u d' =>
      obtain ⟨k, hk, hn, rfl⟩ := readLen_ok hr
      simp only [hr] at h
      by_cases hu : u > d'.length
      · rw [if_pos hu] at h; cases h
      · rw [if_neg hu] at h
        by_cases hl : lim u
        · rw [if_pos hl] at h
          obtain ⟨l, hl', rfl⟩ := Res.map_ok h
          obtain ⟨bs, hbs, rfl⟩ := decLoop_ok (fun x p d rest hx => decode_canon lim t {} x p d rest hg.1 hx) _ _ _ _ hl'
          have hlen : l.val.length = u := by rw [l.property, List.length_replicate]
          refine ⟨putLen k u ++ bs, ?_, by simp⟩
          simp [enc, hlen, len_intro hk hn, hbs]
        · rw [if_neg hl] at h; cases h
  | .ptr t, ts, v, prev, d, rest, hg, h => by
    simp only [Good] at hg
    simp only [decode, customDec_none hg.2] at h
    simp only [enc, hg.2, Bool.false_eq_true, if_false]
    by_cases ho : ts.optional
    · simp only [ho, if_true] at h ⊢
      cases hp : pop 1 d with
      | none => simp [hp] at h
      | some p =>
        obtain ⟨b, d'⟩ := p
        obtain ⟨hlen, rfl⟩ := pop_some hp
        simp only [hp] at h
        by_cases h0 : b = [0]
        · rw [if_pos h0] at h
          simp only [Res.ok.injEq] at h
          obtain ⟨rfl, rfl⟩ := h
          exact ⟨b, by simp [h0], rfl⟩
        · rw [if_neg h0] at h
          by_cases h1 : b = [1]
          · rw [if_pos h1] at h
            obtain ⟨x, hx, rfl⟩ := Res.map_ok h
            obtain ⟨bs, hbs, rfl⟩ := decode_canon lim t ts x _ _ _ hg.1 hx
            exact ⟨1 :: bs, by simp [hbs], by simp [h1]⟩
          · rw [if_neg h1] at h; cases h
    · simp only [ho, if_false, Bool.false_eq_true] at h ⊢
      obtain ⟨x, hx, rfl⟩ := Res.map_ok h
      exact decode_canon lim t ts x _ _ _ hg.1 hx
  | .struct fs, ts, v, prev, d, rest, hg, h => by
    simp only [Good] at hg
    simp only [decode] at h
    simp only [enc]
    exact decodeFields_canon lim fs v prev d rest hg h
  | .custom c, ts, v, prev, d, rest, hg, h => by
    simp only [Good] at hg
    simp only [decode, runCustom] at h
    cases hd : c.dec prev d with
    | err e => simp [hd] at h
    | panic => simp [hd] at h
    | ok p =>
      obtain ⟨n, a⟩ := p
      obtain ⟨h1, h2⟩ := hg.canon prev a n d hd
      simp only [hd] at h
      rw [if_neg (by omega)] at h
      simp only [Res.ok.injEq] at h
      obtain ⟨rfl, rfl⟩ := h
      exact ⟨d.take n, by simp only [enc, h2], by simp⟩
  | .unsupported α z, ts, v, prev, d, rest, hg, h => by simp [decode] at h
theorem decodeFields_canon (lim : Nat → Bool) : ∀ (fs : Fields) (v prev : fs.Val) (d rest : Bytes), GoodFields fs →
    decodeFields lim fs prev d = .ok v rest → ∃ bs, encFields fs v = some bs ∧ d = bs ++ rest
  | .nil, v, prev, d, rest, _, h => by
    simp only [decodeFields, Res.ok.injEq] at h
    exact ⟨[], rfl, h.2⟩
  | .cons tag t fs, v, prev, d, rest, hg, h => by
    simp only [GoodFields] at hg
    simp only [decodeFields] at h
    cases hts : fieldTags tag with
    | none => simp [hts] at h
    | some ts =>
      simp only [hts] at h
      cases hd : decode lim t prev.1 ts d with
      | err e d' => simp [hd] at h
      | panic => simp [hd] at h
      | ok x d' =>
        simp only [hd] at h
        obtain ⟨xs, hxs, rfl⟩ := Res.map_ok h
        obtain ⟨a, ha, rfl⟩ := decode_canon lim t ts x _ _ _ hg.1 hd
        obtain ⟨c, hc, rfl⟩ := decodeFields_canon lim fs xs _ _ _ hg.2 hxs
        exact ⟨a ++ c, by simp [encFields, hts, ha, hc], by simp⟩
end

end Nimiq.Beserial
