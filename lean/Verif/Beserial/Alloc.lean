import Verif.Beserial.AllocModel
import Verif.Beserial.Props
/-!
# C101: the memory requested by `Unmarshal` is linear in the length of the input

`fixedMem t` and `perByte t` are the two coefficients, read off the type: a slice costs its element for every byte of the
input (an element takes at least a byte), a pointer costs its target once, everything else is as its parts are.
-/
namespace Nimiq.Beserial
open Spec

mutual
/-- Bytes a value of the type may cost whatever its input is. -/
def fixedMem : Ty → Nat
  | .custom c => c.mem.base
  | .ptr t => t.size + fixedMem t
  | .arr n t => n * fixedMem t
  | .struct fs => fixedMemFields fs
  | .num _ | .bool | .str | .byteArr _ | .byteSlice | .slice _ | .unsupported _ _ => 0
def fixedMemFields : Fields → Nat
  | .nil => 0
  | .cons _ t fs => fixedMem t + fixedMemFields fs
end

mutual
/-- Bytes a value of the type may cost for each byte of its input. -/
def perByte : Ty → Nat
  | .custom c => c.mem.rate
  | .str => 1
  | .byteSlice => 1
  | .ptr t => perByte t
  | .arr _ t => perByte t
  | .slice t => t.size + fixedMem t + perByte t
  | .struct fs => perByteFields fs
  | .num _ | .bool | .byteArr _ | .unsupported _ _ => 0
def perByteFields : Fields → Nat
  | .nil => 0
  | .cons _ t fs => max (perByte t) (perByteFields fs)
end

/-- A custom decoder keeps the bounds it declares: on every input, and in the bytes it reads if it succeeds; then it reads
at least the declared minimum. -/
def Frugal (c : Codec) : Prop :=
  ∀ d, c.mem.alloc d ≤ c.mem.base + c.mem.rate * d.length ∧
    ∀ prev n v, c.dec prev d = .ok (n, v) → n ≤ d.length → c.mem.alloc d ≤ c.mem.base + c.mem.rate * n ∧ c.min ≤ n

mutual
/-- All custom decoders of a type are frugal (and not behind pointers), and elements of slices take at least one byte. -/
def Thrifty : Ty → Prop
  | .custom c => Frugal c
  | .ptr t => Thrifty t ∧ isCustom t = false
  | .arr _ t => Thrifty t
  | .slice t => Thrifty t ∧ 1 ≤ minSize t {}
  | .struct fs => ThriftyFields fs
  | .num _ | .bool | .str | .byteArr _ | .byteSlice | .unsupported _ _ => True
def ThriftyFields : Fields → Prop
  | .nil => True
  | .cons _ t fs => Thrifty t ∧ ThriftyFields fs
end

theorem bound_mono {a b q R r d : Nat} (hr : r ≤ d) (hq : q ≤ R) (h : a + q * r ≤ b + q * d) : a + R * r ≤ b + R * d := by
  obtain ⟨e, rfl⟩ := Nat.exists_eq_add_of_le hq
  have h1 : e * r ≤ e * d := Nat.mul_le_mul_left e hr
  rw [Nat.add_mul, Nat.add_mul]
  omega

theorem allocLoop_le {α} {f : α → Bytes → Res α} {g : α → Bytes → Nat} {B R : Nat}
    (hf : ∀ p d v r, f p d = .ok v r → r.length ≤ d.length)
    (hg : ∀ p d, g p d ≤ B + R * d.length)
    (hok : ∀ p d v r, f p d = .ok v r → g p d + R * r.length ≤ B + R * d.length) :
    ∀ (prev : List α) (d : Bytes), allocLoop f g prev d ≤ prev.length * B + R * d.length ∧
      ∀ l r, decLoop f prev d = .ok l r → allocLoop f g prev d + R * r.length ≤ prev.length * B + R * d.length
  | [], d => by
    refine ⟨by simp [allocLoop], ?_⟩
    intro l r h
    simp only [decLoop, Res.ok.injEq] at h
    obtain ⟨_, rfl⟩ := h
    simp [allocLoop]
  | p :: prev, d => by
    have hp := hg p d
    have hsucc : (p :: prev).length * B = B + prev.length * B := by rw [List.length_cons, Nat.succ_mul, Nat.add_comm]
    simp only [allocLoop, decLoop]
    cases hfd : f p d with
    | ok v d' =>
      have ih := allocLoop_le hf hg hok prev d'
      have ho := hok _ _ _ _ hfd
      dsimp only
      refine ⟨by have := ih.1; omega, ?_⟩
      intro l r h
      cases hl : decLoop f prev d' with
      | ok l' d'' =>
        rw [hl] at h
        simp only [Res.ok.injEq] at h
        obtain ⟨_, rfl⟩ := h
        have := ih.2 _ _ hl
        omega
      | err e d'' => rw [hl] at h; simp at h
      | panic => rw [hl] at h; simp at h
    | err e d' =>
      dsimp only
      exact ⟨by omega, fun l r h => by simp at h⟩
    | panic =>
      dsimp only
      exact ⟨by omega, fun l r h => by simp at h⟩

theorem allocLoop_le' {α} {f : α → Bytes → Res α} {g : α → Bytes → Nat} {B R : Nat}
    (hf : ∀ p d v r, f p d = .ok v r → r.length ≤ d.length)
    (hg : ∀ p d, g p d ≤ B + R * d.length)
    (hok : ∀ p d v r, f p d = .ok v r → g p d + R * r.length ≤ B + R * d.length)
    (prev : List α) (n : Nat) (hn : prev.length = n) (d : Bytes) : allocLoop f g prev d ≤ n * B + R * d.length ∧
      ∀ l r, decLoop f prev d = .ok l r → allocLoop f g prev d + R * r.length ≤ n * B + R * d.length := by
  subst hn
  exact allocLoop_le hf hg hok prev d

theorem decode_ok_len (t : Ty) (ts : Tags) (p v : t.Val) (d r : Bytes) (h : decode (fun _ => true) t p ts d = .ok v r) :
    r.length ≤ d.length :=
  (decode_suffix _ t ts p d r (by rw [h]; rfl)).length_le

theorem decLoop_ok_len {α} {g : α → Bytes → Res α} (m : Nat)
    (hg : ∀ p d v r, g p d = .ok v r → r.length + m ≤ d.length) :
    ∀ (prev : List α) (d : Bytes) l r, decLoop g prev d = .ok l r → r.length + prev.length * m ≤ d.length
  | [], d, l, r, h => by
    simp only [decLoop, Res.ok.injEq] at h
    obtain ⟨_, rfl⟩ := h
    simp
  | p :: prev, d, l, r, h => by
    have hsucc : (p :: prev).length * m = m + prev.length * m := by rw [List.length_cons, Nat.succ_mul, Nat.add_comm]
    rw [decLoop] at h
    cases hfd : g p d with
    | ok v d' =>
      rw [hfd] at h
      dsimp only at h
      cases hl : decLoop g prev d' with
      | ok l' d'' =>
        rw [hl] at h
        simp only [Res.ok.injEq] at h
        obtain ⟨_, rfl⟩ := h
        have := decLoop_ok_len m hg prev d' _ _ hl
        have := hg _ _ _ _ hfd
        omega
      | err e d'' => rw [hl] at h; simp at h
      | panic => rw [hl] at h; simp at h
    | err e d' => rw [hfd] at h; simp at h
    | panic => rw [hfd] at h; simp at h

theorem readLen_reads {ts : Tags} {d r : Bytes} {u : Nat} (h : readLen ts d = .ok u r) :
    r.length + minSize .str ts ≤ d.length := by
  rw [readLen] at h
  rw [minSize]
  cases hk : ts.lenTag with
  | none => rw [hk] at h; simp at h
  | some k =>
    rw [hk] at h
    dsimp only at h ⊢
    cases hp : pop k.size d with
    | none => rw [hp] at h; simp at h
    | some br =>
      obtain ⟨b, r'⟩ := br
      rw [hp] at h
      dsimp only at h
      obtain ⟨h1, h2⟩ := pop_some hp
      have h3 := congrArg List.length h2
      rw [List.length_append] at h3
      have h4 : lenBytes k = k.size := by cases k <;> rfl
      split at h
      · simp at h
      · simp only [Res.ok.injEq] at h
        obtain ⟨_, rfl⟩ := h
        omega

mutual
/-- A successful decoding of a type reads at least `minSize` bytes. -/
theorem decode_reads : ∀ (t : Ty) (ts : Tags) (p v : t.Val) (d r : Bytes), Thrifty t →
    decode (fun _ => true) t p ts d = .ok v r → r.length + minSize t ts ≤ d.length
  | .custom c, ts, p, v, d, r, hc, h => by
    rw [decode, runCustom] at h
    rw [minSize]
    cases hd : c.dec p d with
    | ok nv =>
      obtain ⟨n, w⟩ := nv
      rw [hd] at h
      dsimp only at h
      split at h
      · simp at h
      · simp only [Res.ok.injEq] at h
        obtain ⟨_, rfl⟩ := h
        have h1 := ((hc d).2 p n w hd (by omega)).2
        rw [List.length_drop]
        omega
    | err e => rw [hd] at h; simp at h
    | panic => rw [hd] at h; simp at h
  | .ptr t, ts, p, v, d, r, hc, h => by
    have ht : t.customDec = none := customDec_none hc.2
    rw [decode, ht] at h
    rw [minSize]
    dsimp only at h
    cases ho : ts.optional with
    | true =>
      simp only [ho, if_true] at h
      simp only [if_true]
      cases hp : pop 1 d with
      | none => rw [hp] at h; simp at h
      | some fr =>
        obtain ⟨flag, d'⟩ := fr
        rw [hp] at h
        obtain ⟨h1, h2⟩ := pop_some hp
        have h3 := congrArg List.length h2
        rw [List.length_append] at h3
        dsimp only at h
        by_cases h0 : flag = [0x00]
        · rw [if_pos h0] at h
          simp only [Res.ok.injEq] at h
          obtain ⟨_, rfl⟩ := h
          omega
        · rw [if_neg h0] at h
          by_cases h1 : flag = [0x01]
          · rw [if_pos h1] at h
            obtain ⟨w, hw, _⟩ := Res.map_ok h
            have := decode_ok_len t ts _ _ _ _ hw
            omega
          · rw [if_neg h1] at h; simp at h
    | false =>
      simp only [ho, Bool.false_eq_true, if_false] at h
      simp only [Bool.false_eq_true, if_false]
      obtain ⟨w, hw, _⟩ := Res.map_ok h
      exact decode_reads t ts _ _ _ _ hc.1 hw
  | .byteArr n, ts, p, v, d, r, _, h => by
    rw [decode] at h
    rw [minSize]
    cases hp : pop n d with
    | none => rw [hp] at h; simp at h
    | some fr =>
      obtain ⟨b, d'⟩ := fr
      rw [hp] at h
      simp only [Res.ok.injEq] at h
      obtain ⟨_, rfl⟩ := h
      obtain ⟨h1, h2⟩ := pop_some hp
      have h3 := congrArg List.length h2
      rw [List.length_append] at h3
      omega
  | .arr n t, ts, p, v, d, r, hc, h => by
    rw [decode] at h
    rw [minSize]
    cases hl : decLoop (fun p d => decode (fun _ => true) t p {} d) p.val d with
    | ok l r' =>
      rw [hl] at h
      simp only [Res.ok.injEq] at h
      obtain ⟨_, rfl⟩ := h
      have := decLoop_ok_len _ (fun p d v r h => decode_reads t {} p v d r hc h) _ _ _ _ hl
      rw [p.property] at this
      exact this
    | err e r' => rw [hl] at h; simp at h
    | panic => rw [hl] at h; simp at h
  | .str, ts, p, v, d, r, _, h => by
    rw [decode] at h
    cases hr : readLen ts d with
    | ok u d' =>
      rw [hr] at h
      have h0 := readLen_reads hr
      dsimp only at h
      cases hp : pop u d' with
      | none => rw [hp] at h; simp at h
      | some br =>
        rw [hp] at h
        simp only [Res.ok.injEq] at h
        obtain ⟨_, rfl⟩ := h
        have := (pop_suffix (a := br.1) (r := br.2) hp).length_le
        omega
    | err e d' => rw [hr] at h; simp at h
    | panic => rw [hr] at h; simp at h
  | .byteSlice, ts, p, v, d, r, _, h => by
    rw [decode] at h
    have hm : minSize (.byteSlice) ts = minSize .str ts := by simp only [minSize]
    rw [hm]
    cases hr : readLen ts d with
    | ok u d' =>
      rw [hr] at h
      have h0 := readLen_reads hr
      dsimp only at h
      cases hp : pop u d' with
      | none => rw [hp] at h; simp at h
      | some br =>
        rw [hp] at h
        simp only [if_true, Res.ok.injEq] at h
        obtain ⟨_, rfl⟩ := h
        have := (pop_suffix (a := br.1) (r := br.2) hp).length_le
        omega
    | err e d' => rw [hr] at h; simp at h
    | panic => rw [hr] at h; simp at h
  | .slice t, ts, p, v, d, r, hc, h => by
    rw [decode] at h
    have hm : minSize (.slice t) ts = minSize .str ts := by simp only [minSize]
    rw [hm]
    cases hr : readLen ts d with
    | ok u d' =>
      rw [hr] at h
      have h0 := readLen_reads hr
      dsimp only at h
      by_cases hu : u > d'.length
      · rw [if_pos hu] at h; simp at h
      · rw [if_neg hu] at h
        simp only [if_true] at h
        obtain ⟨w, hw, _⟩ := Res.map_ok h
        have := decLoop_ok_len 0 (fun p d v r h => decode_ok_len t {} p v d r h) _ _ _ _ hw
        omega
    | err e d' => rw [hr] at h; simp at h
    | panic => rw [hr] at h; simp at h
  | .struct fs, ts, p, v, d, r, hc, h => by
    rw [decode] at h
    rw [minSize]
    exact decodeFields_reads fs p v d r hc h
  | .bool, ts, p, v, d, r, _, h => by
    rw [decode] at h
    rw [minSize]
    cases hp : pop 1 d with
    | none => rw [hp] at h; simp at h
    | some fr =>
      obtain ⟨b, d'⟩ := fr
      rw [hp] at h
      obtain ⟨h1, h2⟩ := pop_some hp
      have h3 := congrArg List.length h2
      rw [List.length_append] at h3
      dsimp only at h
      by_cases h0 : b = [0]
      · rw [if_pos h0] at h
        simp only [Res.ok.injEq] at h
        obtain ⟨_, rfl⟩ := h
        omega
      · rw [if_neg h0] at h
        by_cases h1 : b = [1]
        · rw [if_pos h1] at h
          simp only [Res.ok.injEq] at h
          obtain ⟨_, rfl⟩ := h
          omega
        · rw [if_neg h1] at h; simp at h
  | .num k, ts, p, v, d, r, _, h => by
    rw [decode] at h
    rw [minSize]
    cases hp : pop k.size d with
    | none => rw [hp] at h; simp at h
    | some fr =>
      obtain ⟨b, d'⟩ := fr
      rw [hp] at h
      simp only [Res.ok.injEq] at h
      obtain ⟨_, rfl⟩ := h
      obtain ⟨h1, h2⟩ := pop_some hp
      have h3 := congrArg List.length h2
      rw [List.length_append] at h3
      have h4 : numBytes k = k.size := by cases k <;> rfl
      omega
  | .unsupported _ _, ts, p, v, d, r, _, h => by
    rw [decode] at h
    simp at h
theorem decodeFields_reads : ∀ (fs : Fields) (p v : fs.Val) (d r : Bytes), ThriftyFields fs →
    decodeFields (fun _ => true) fs p d = .ok v r → r.length + minFields fs ≤ d.length
  | .nil, p, v, d, r, _, h => by
    rw [decodeFields] at h
    simp only [Res.ok.injEq] at h
    obtain ⟨_, rfl⟩ := h
    rw [minFields]
    omega
  | .cons tag t fs, p, v, d, r, hc, h => by
    rw [decodeFields] at h
    rw [minFields]
    cases htag : fieldTags tag with
    | none => rw [htag] at h; simp at h
    | some ts =>
      rw [htag] at h
      dsimp only at h ⊢
      cases hd : decode (fun _ => true) t p.1 ts d with
      | ok w d' =>
        rw [hd] at h
        obtain ⟨vs, hvs, _⟩ := Res.map_ok h
        have h1 := decode_reads t ts _ _ _ _ hc.1 hd
        have h2 := decodeFields_reads fs _ _ _ _ hc.2 hvs
        omega
      | err e d' => rw [hd] at h; simp at h
      | panic => rw [hd] at h; simp at h
end

mutual
theorem alloc_le : ∀ (t : Ty) (prev : t.Val) (ts : Tags) (d : Bytes), Thrifty t →
    alloc t prev ts d ≤ fixedMem t + perByte t * d.length ∧
    ∀ v r, decode (fun _ => true) t prev ts d = .ok v r →
      alloc t prev ts d + perByte t * r.length ≤ fixedMem t + perByte t * d.length
  | .custom c, prev, ts, d, hc => by
    have hc := hc d
    rw [alloc, fixedMem, perByte, decode]
    refine ⟨hc.1, ?_⟩
    intro v r h
    rw [runCustom] at h
    cases hd : c.dec prev d with
    | ok nv =>
      obtain ⟨n, w⟩ := nv
      rw [hd] at h
      dsimp only at h
      split at h
      · simp at h
      · simp only [Res.ok.injEq] at h
        obtain ⟨_, rfl⟩ := h
        have h1 := (hc.2 prev n w hd (by omega)).1
        rw [List.length_drop]
        obtain ⟨k, hk⟩ := Nat.exists_eq_add_of_le (show n ≤ d.length by omega)
        rw [hk, Nat.mul_add, show n + k - n = k by omega]
        omega
    | err e => rw [hd] at h; simp at h
    | panic => rw [hd] at h; simp at h
  | .ptr t, prev, ts, d, hc => by
    have ht : t.customDec = none := customDec_none hc.2
    have ih := fun d => alloc_le t t.zero ts d hc.1
    rw [alloc, fixedMem, perByte, decode, ht]
    dsimp only
    cases ho : ts.optional with
    | true =>
      simp only [if_true]
      cases hp : pop 1 d with
      | none =>
        dsimp only
        exact ⟨Nat.zero_le _, fun v r h => by simp at h⟩
      | some fr =>
        obtain ⟨flag, d'⟩ := fr
        dsimp only
        have hl := (pop_suffix hp).length_le
        have hm : perByte t * d'.length ≤ perByte t * d.length := Nat.mul_le_mul_left _ hl
        have hi := ih d'
        by_cases h0 : flag = [0x00]
        · have h01 : ¬ flag = [0x01] := by rw [h0]; decide
          rw [if_neg h01, if_pos h0]
          refine ⟨Nat.zero_le _, ?_⟩
          intro v r h
          simp only [Res.ok.injEq] at h
          obtain ⟨_, rfl⟩ := h
          omega
        · rw [if_neg h0]
          by_cases h1 : flag = [0x01]
          · rw [if_pos h1, if_pos h1]
            refine ⟨by have := hi.1; omega, ?_⟩
            intro v r h
            obtain ⟨w, hw, _⟩ := Res.map_ok h
            have := hi.2 _ _ hw
            omega
          · rw [if_neg h1, if_neg h1]
            exact ⟨Nat.zero_le _, fun v r h => by simp at h⟩
    | false =>
      simp only [Bool.false_eq_true, if_false]
      have hi := ih d
      refine ⟨by have := hi.1; omega, ?_⟩
      intro v r h
      obtain ⟨w, hw, _⟩ := Res.map_ok h
      have := hi.2 _ _ hw
      omega
  | .byteArr n, prev, ts, d, _ => by
    rw [alloc]
    simp [fixedMem, perByte]
  | .arr n t, prev, ts, d, hc => by
    have ih := fun p d => alloc_le t p {} d hc
    have hL := allocLoop_le' (fun p d v r h => decode_ok_len t {} p v d r h) (fun p d => (ih p d).1)
      (fun p d v r h => (ih p d).2 v r h) prev.val n prev.property d
    rw [alloc, fixedMem, perByte, decode]
    refine ⟨hL.1, ?_⟩
    intro v r h
    cases hl : decLoop (fun p d => decode (fun _ => true) t p {} d) prev.val d with
    | ok l r' =>
      rw [hl] at h
      simp only [Res.ok.injEq] at h
      obtain ⟨_, rfl⟩ := h
      exact hL.2 _ _ hl
    | err e r' => rw [hl] at h; simp at h
    | panic => rw [hl] at h; simp at h
  | .str, prev, ts, d, _ => by
    rw [alloc, fixedMem, perByte, decode]
    cases hr : readLen ts d with
    | ok u d' =>
      have hl := (readLen_suffix (ts := ts) (d := d) (r := d') (by rw [hr]; rfl)).length_le
      dsimp only
      cases hp : pop u d' with
      | none => exact ⟨Nat.zero_le _, fun v r h => by simp at h⟩
      | some br =>
        obtain ⟨b, r'⟩ := br
        obtain ⟨h1, h2⟩ := pop_some hp
        have h3 := congrArg List.length h2
        rw [List.length_append] at h3
        dsimp only
        refine ⟨by omega, ?_⟩
        intro v r h
        simp only [Res.ok.injEq] at h
        obtain ⟨_, rfl⟩ := h
        omega
    | err e d' => exact ⟨Nat.zero_le _, fun v r h => by simp at h⟩
    | panic => exact ⟨Nat.zero_le _, fun v r h => by simp at h⟩
  | .byteSlice, prev, ts, d, _ => by
    rw [alloc, fixedMem, perByte, decode]
    cases hr : readLen ts d with
    | ok u d' =>
      have hl := (readLen_suffix (ts := ts) (d := d) (r := d') (by rw [hr]; rfl)).length_le
      dsimp only
      cases hp : pop u d' with
      | none => exact ⟨Nat.zero_le _, fun v r h => by simp at h⟩
      | some br =>
        obtain ⟨b, r'⟩ := br
        obtain ⟨h1, h2⟩ := pop_some hp
        have h3 := congrArg List.length h2
        rw [List.length_append] at h3
        simp only [if_true]
        refine ⟨by omega, ?_⟩
        intro v r h
        simp only [Res.ok.injEq] at h
        obtain ⟨_, rfl⟩ := h
        omega
    | err e d' => exact ⟨Nat.zero_le _, fun v r h => by simp at h⟩
    | panic => exact ⟨Nat.zero_le _, fun v r h => by simp at h⟩
  | .slice t, prev, ts, d, hc => by
    have ih := fun p d => alloc_le t p {} d hc.1
    rw [alloc, fixedMem, perByte, decode]
    cases hr : readLen ts d with
    | ok u d' =>
      have hl := (readLen_suffix (ts := ts) (d := d) (r := d') (by rw [hr]; rfl)).length_le
      dsimp only
      by_cases hu : u > d'.length
      · rw [if_pos hu, if_pos hu]
        exact ⟨Nat.zero_le _, fun v r h => by simp at h⟩
      · rw [if_neg hu, if_neg hu]
        simp only [if_true]
        have hL := allocLoop_le' (fun p d v r h => decode_ok_len t {} p v d r h) (fun p d => (ih p d).1)
          (fun p d v r h => (ih p d).2 v r h) (List.replicate u t.zero) u List.length_replicate d'
        have hm : (t.size + fixedMem t + perByte t) * d'.length ≤ (t.size + fixedMem t + perByte t) * d.length :=
          Nat.mul_le_mul_left _ hl
        have hs : u * t.size + u * fixedMem t ≤ (t.size + fixedMem t) * d'.length := by
          rw [← Nat.mul_add, Nat.mul_comm]; exact Nat.mul_le_mul_left _ (by omega)
        rw [Nat.add_mul _ _ d'.length] at hm
        generalize hA : allocLoop (fun p d => decode (fun _ => true) t p {} d) (fun p d => alloc t p {} d)
          (List.replicate u t.zero) d' = A
        have hL1 : A ≤ u * fixedMem t + perByte t * d'.length := by rw [← hA]; exact hL.1
        refine ⟨by omega, ?_⟩
        intro v r h
        obtain ⟨w, hw, _⟩ := Res.map_ok h
        have h1 : A + perByte t * r.length ≤ u * fixedMem t + perByte t * d'.length := by rw [← hA]; exact hL.2 _ _ hw
        have h2 := decLoop_ok_len 1 (fun p d v r h => by
          have := decode_reads t {} p v d r hc.1 h
          have := hc.2
          omega) _ _ _ _ hw
        rw [List.length_replicate, Nat.mul_one] at h2
        have h3 : (t.size + fixedMem t) * r.length + (u * t.size + u * fixedMem t) ≤ (t.size + fixedMem t) * d'.length := by
          rw [← Nat.mul_add, Nat.mul_comm u, ← Nat.mul_add]; exact Nat.mul_le_mul_left _ h2
        rw [Nat.add_mul _ _ r.length]
        omega
    | err e d' => exact ⟨Nat.zero_le _, fun v r h => by simp at h⟩
    | panic => exact ⟨Nat.zero_le _, fun v r h => by simp at h⟩
  | .struct fs, prev, ts, d, hc => by
    rw [alloc, fixedMem, perByte, decode]
    exact allocFields_le fs prev d hc
  | .bool, prev, ts, d, _ => by rw [alloc]; simp [fixedMem, perByte]
  | .num k, prev, ts, d, _ => by rw [alloc]; simp [fixedMem, perByte]
  | .unsupported _ _, prev, ts, d, _ => by rw [alloc]; simp [fixedMem, perByte]
theorem allocFields_le : ∀ (fs : Fields) (prev : fs.Val) (d : Bytes), ThriftyFields fs →
    allocFields fs prev d ≤ fixedMemFields fs + perByteFields fs * d.length ∧
    ∀ v r, decodeFields (fun _ => true) fs prev d = .ok v r →
      allocFields fs prev d + perByteFields fs * r.length ≤ fixedMemFields fs + perByteFields fs * d.length
  | .nil, prev, d, _ => by
    rw [allocFields]
    simp [fixedMemFields, perByteFields]
  | .cons tag t fs, prev, d, hc => by
    rw [allocFields, fixedMemFields, perByteFields, decodeFields]
    cases htag : fieldTags tag with
    | none => exact ⟨Nat.zero_le _, fun v r h => by simp at h⟩
    | some ts =>
      have ih := alloc_le t prev.1 ts d hc.1
      dsimp only
      have h1 := bound_mono (a := alloc t prev.1 ts d) (r := 0) (Nat.zero_le d.length)
        (Nat.le_max_left (perByte t) (perByteFields fs)) (by have := ih.1; simpa using this)
      rw [Nat.mul_zero, Nat.add_zero] at h1
      cases hd : decode (fun _ => true) t prev.1 ts d with
      | ok w d' =>
        have hl := decode_ok_len t ts prev.1 w d d' hd
        have h2 := bound_mono hl (Nat.le_max_left (perByte t) (perByteFields fs)) (ih.2 _ _ hd)
        have ih2 := allocFields_le fs prev.2 d' hc.2
        have h3 := bound_mono (a := allocFields fs prev.2 d') (r := 0) (Nat.zero_le d'.length)
          (Nat.le_max_right (perByte t) (perByteFields fs)) (by have := ih2.1; simpa using this)
        rw [Nat.mul_zero, Nat.add_zero] at h3
        dsimp only
        refine ⟨by omega, ?_⟩
        intro v r h
        obtain ⟨vs, hvs, _⟩ := Res.map_ok h
        have hl' : r.length ≤ d'.length := (decodeFields_suffix _ fs prev.2 d' r (by rw [hvs]; rfl)).length_le
        have h4 := bound_mono hl' (Nat.le_max_right (perByte t) (perByteFields fs)) (ih2.2 _ _ hvs)
        omega
      | err e d' => exact ⟨by dsimp only; omega, fun v r h => by simp at h⟩
      | panic => exact ⟨by dsimp only; omega, fun v r h => by simp at h⟩
end

/-- **C101.** Whatever the input is and whether `Unmarshal` succeeds or not, the memory it requests is bounded by a linear
function of the length of the input whose coefficients depend on the type only (for types whose slice elements take at
least a byte). -/
theorem C101_linear (t : Ty) (ht : Thrifty t) (prev : t.Val) (data : Bytes) :
    unmarshalAlloc t prev data ≤ fixedMem t + perByte t * data.length :=
  (alloc_le t prev {} data ht).1

/-- On success only the bytes read count: what follows the value in the input does not make it more expensive. -/
theorem C101_linear_in_read (t : Ty) (ht : Thrifty t) (prev v : t.Val) (data rest : Bytes)
    (h : Unmarshal t prev data = .ok v rest) :
    unmarshalAlloc t prev data ≤ fixedMem t + perByte t * (data.length - rest.length) := by
  have h1 := (alloc_le t prev {} data ht).2 v rest h
  have h2 := decode_ok_len t {} prev v data rest h
  obtain ⟨k, hk⟩ := Nat.exists_eq_add_of_le h2
  rw [unmarshalAlloc]
  rw [hk, Nat.mul_add] at h1
  rw [hk, show rest.length + k - rest.length = k by omega]
  omega

theorem decLoop_const {α} (f : α → Bytes → Res α) (v : α) (hf : ∀ p d, f p d = .ok v d) (k : Nat) (p : α) (d : Bytes) :
    (decLoop f (List.replicate k p) d).map (·.val) = .ok (List.replicate k v) d := by
  induction k with
  | zero => rfl
  | succ k ih =>
    rw [List.replicate_succ, decLoop, hf]
    dsimp only
    cases h : decLoop f (List.replicate k p) d with
    | ok l r =>
      rw [h] at ih
      simp only [Res.map, Res.ok.injEq] at ih ⊢
      exact ⟨by rw [ih.1, List.replicate_succ], ih.2⟩
    | err e r => rw [h] at ih; simp [Res.map] at ih
    | panic => rw [h] at ih; simp [Res.map] at ih

theorem allocLoop_zero {α} (f : α → Bytes → Res α) (g : α → Bytes → Nat) (hg : ∀ p d, g p d = 0) :
    ∀ (l : List α) (d : Bytes), allocLoop f g l d = 0
  | [], d => rfl
  | p :: l, d => by
    rw [allocLoop, hg]
    split
    · rw [allocLoop_zero f g hg l]
    · rfl

/-- The condition on slice elements is needed: a slice of pointers to empty structs reads one byte (its length) and
requests eight bytes for each element. -/
def hollow : Ty := .struct (.cons (some ['l', 'e', 'n', '_', 't', 'a', 'g', '=', 'u', 'i', 'n', 't', '8'])
  (.slice (.ptr (.struct .nil))) .nil)
theorem C101_condition_matters (n : UInt8) (data : Bytes) (h : data.length = n.toNat) :
    Unmarshal hollow hollow.zero (n :: data) = .ok (List.replicate n.toNat (some ()), ()) data ∧
    unmarshalAlloc hollow hollow.zero (n :: data) = 8 * n.toNat := by
  have hg : getBE [n] = n.toNat := by simp [getBE]
  have ht : fieldTags (some ['l', 'e', 'n', '_', 't', 'a', 'g', '=', 'u', 'i', 'n', 't', '8']) = some { lenTag := some .u8 } := by
    decide
  have hp : pop 1 (n :: data) = some ([n], data) := by simp [pop]
  have hn := UInt8.toNat_lt n
  have hr : readLen { lenTag := some .u8 } (n :: data) = .ok n.toNat data := by
    simp only [readLen, LenKind.size, hp, hg]
    rw [if_neg]
    simp only [maxInt]
    omega
  have hf : ∀ (p : Option Unit) (d : Bytes), decode (fun _ => true) (.ptr (.struct .nil)) p {} d = .ok (some ()) d := by
    intro p d
    simp [decode, decodeFields, Ty.customDec, Res.map]
  have ha : ∀ (p : Option Unit) (d : Bytes), alloc (.ptr (.struct .nil)) p {} d = 0 := by
    intro p d
    simp [alloc, allocFields, Ty.customDec, Ty.size, Fields.size, Fields.align, roundUp]
  have hz : (Ty.ptr (.struct .nil)).zero = none := rfl
  constructor
  · show decode (fun _ => true) hollow _ {} _ = _
    unfold hollow
    rw [decode, decodeFields, ht]
    dsimp only
    rw [decode, hr]
    dsimp only
    rw [if_neg (by omega)]
    simp only [if_true]
    have := decLoop_const (fun (p : Option Unit) d => decode (fun _ => true) (.ptr (.struct .nil)) p {} d) (some ()) hf n.toNat
      (Ty.ptr (.struct .nil)).zero data
    rw [this]
    rfl
  · rw [unmarshalAlloc]
    unfold hollow
    rw [alloc, allocFields, ht]
    dsimp only
    rw [alloc, hr]
    dsimp only
    rw [if_neg (by omega)]
    have hL := allocLoop_zero (fun (p : Option Unit) d => decode (fun _ => true) (.ptr (.struct .nil)) p {} d)
      (fun p d => alloc (.ptr (.struct .nil)) p {} d) ha (List.replicate n.toNat none) data
    rw [hz, hL]
    have hs : (Ty.ptr (.struct .nil)).size = 8 := rfl
    rw [hs]
    split
    · rw [allocFields]; omega
    · omega

/-- Not vacuous: the type of the examples of C29 is covered. -/
example : Thrifty exTy ∧ fixedMem exTy = 24 ∧ perByte exTy = 4 := by
  refine ⟨?_, rfl, rfl⟩
  simp [exTy, exInner, Thrifty, ThriftyFields, minSize, isCustom, numBytes]
example : unmarshalAlloc exTy exTy.zero exBytes = 4 * 2 + 24 + 2 := rfl
/-- and a length that is not backed by data requests nothing -/
example : unmarshalAlloc exTy exTy.zero [0, 0, 255, 1, 2, 3] = 0 := rfl

end Nimiq.Beserial
