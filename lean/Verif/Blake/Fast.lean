import Verif.Blake.Spec
/-!
# Blake2b-256 in a form the kernel evaluates quickly, proved equal to the specification
-/
namespace Nimiq.Blake

/-- Evaluates `v` before going on with it. -/
def S {α : Type} (v : Nat) (k : Nat → α) : α := Nat.rec (k 0) (fun n _ => k (Nat.succ n)) v

theorem S_eq {α : Type} (v : Nat) (k : Nat → α) : S v k = k v := by cases v <;> rfl

def fastAdd (a b x : Nat) : Nat := Nat.mod (Nat.add (Nat.add a b) x) (nat_lit 18446744073709551616)

def fast32 (x y : Nat) : Nat := S (Nat.xor x y) fun d =>
  Nat.add (Nat.div d (nat_lit 4294967296)) (Nat.mul (Nat.mod d (nat_lit 4294967296)) (nat_lit 4294967296))

def fast24 (x y : Nat) : Nat := S (Nat.xor x y) fun d =>
  Nat.add (Nat.div d (nat_lit 16777216)) (Nat.mul (Nat.mod d (nat_lit 16777216)) (nat_lit 1099511627776))

def fast16 (x y : Nat) : Nat := S (Nat.xor x y) fun d =>
  Nat.add (Nat.div d (nat_lit 65536)) (Nat.mul (Nat.mod d (nat_lit 65536)) (nat_lit 281474976710656))

def fast63 (x y : Nat) : Nat := S (Nat.xor x y) fun d =>
  Nat.add (Nat.div d (nat_lit 9223372036854775808)) (Nat.mul (Nat.mod d (nat_lit 9223372036854775808)) (nat_lit 2))

def fastG {α : Type} (a b c d x y : Nat) (k : Nat → Nat → Nat → Nat → α) : α :=
  S (fastAdd a b x) fun a => S (fast32 d a) fun d => S (fastAdd c d (nat_lit 0)) fun c => S (fast24 b c) fun b =>
  S (fastAdd a b y) fun a => S (fast16 d a) fun d => S (fastAdd c d (nat_lit 0)) fun c => S (fast63 b c) fun b =>
  k a b c d

def fastRound (v : List Nat) (x0 x1 x2 x3 x4 x5 x6 x7 x8 x9 x10 x11 x12 x13 x14 x15 : Nat) : List Nat :=
  match v with
  | [v0, v1, v2, v3, v4, v5, v6, v7, v8, v9, v10, v11, v12, v13, v14, v15] =>
    fastG v0 v4 v8 v12 x0 x1 fun v0 v4 v8 v12 =>
    fastG v1 v5 v9 v13 x2 x3 fun v1 v5 v9 v13 =>
    fastG v2 v6 v10 v14 x4 x5 fun v2 v6 v10 v14 =>
    fastG v3 v7 v11 v15 x6 x7 fun v3 v7 v11 v15 =>
    fastG v0 v5 v10 v15 x8 x9 fun v0 v5 v10 v15 =>
    fastG v1 v6 v11 v12 x10 x11 fun v1 v6 v11 v12 =>
    fastG v2 v7 v8 v13 x12 x13 fun v2 v7 v8 v13 =>
    fastG v3 v4 v9 v14 x14 x15 fun v3 v4 v9 v14 =>
    [v0, v1, v2, v3, v4, v5, v6, v7, v8, v9, v10, v11, v12, v13, v14, v15]
  | _ => []

def fastRounds (m v : List Nat) : List Nat :=
  match m with
  | [m0, m1, m2, m3, m4, m5, m6, m7, m8, m9, m10, m11, m12, m13, m14, m15] =>
    fastRound (fastRound (fastRound (fastRound (fastRound (fastRound (fastRound (fastRound (fastRound (fastRound (fastRound
      (fastRound v m0 m1 m2 m3 m4 m5 m6 m7 m8 m9 m10 m11 m12 m13 m14 m15)
      m14 m10 m4 m8 m9 m15 m13 m6 m1 m12 m0 m2 m11 m7 m5 m3)
      m11 m8 m12 m0 m5 m2 m15 m13 m10 m14 m3 m6 m7 m1 m9 m4)
      m7 m9 m3 m1 m13 m12 m11 m14 m2 m6 m5 m10 m4 m0 m15 m8)
      m9 m0 m5 m7 m2 m4 m10 m15 m14 m1 m11 m12 m6 m8 m3 m13)
      m2 m12 m6 m10 m0 m11 m8 m3 m4 m13 m7 m5 m15 m14 m1 m9)
      m12 m5 m1 m15 m14 m13 m4 m10 m0 m7 m6 m3 m9 m2 m8 m11)
      m13 m11 m7 m14 m12 m1 m3 m9 m5 m0 m15 m4 m8 m6 m2 m10)
      m6 m15 m14 m9 m11 m3 m0 m8 m12 m2 m13 m7 m1 m4 m10 m5)
      m10 m2 m8 m4 m7 m6 m1 m5 m15 m11 m9 m14 m3 m12 m13 m0)
      m0 m1 m2 m3 m4 m5 m6 m7 m8 m9 m10 m11 m12 m13 m14 m15)
      m14 m10 m4 m8 m9 m15 m13 m6 m1 m12 m0 m2 m11 m7 m5 m3
  | _ => []

/-- The work vector before the rounds. -/
def start (h0 h1 h2 h3 h4 h5 h6 h7 v12 v13 : Nat) (last : Bool) : List Nat :=
  [h0, h1, h2, h3, h4, h5, h6, h7, nat_lit 0x6a09e667f3bcc908, nat_lit 0xbb67ae8584caa73b,
    nat_lit 0x3c6ef372fe94f82b, nat_lit 0xa54ff53a5f1d36f1, v12, v13,
    cond last (nat_lit 0xe07c265404be4294) (nat_lit 0x1f83d9abfb41bd6b), nat_lit 0x5be0cd19137e2179]

/-- The new hash state. -/
def finish (h0 h1 h2 h3 h4 h5 h6 h7 : Nat) (v : List Nat) : List Nat :=
  match v with
  | [v0, v1, v2, v3, v4, v5, v6, v7, v8, v9, v10, v11, v12, v13, v14, v15] =>
    S (Nat.xor (Nat.xor h0 v0) v8) fun a0 => S (Nat.xor (Nat.xor h1 v1) v9) fun a1 =>
    S (Nat.xor (Nat.xor h2 v2) v10) fun a2 => S (Nat.xor (Nat.xor h3 v3) v11) fun a3 =>
    S (Nat.xor (Nat.xor h4 v4) v12) fun a4 => S (Nat.xor (Nat.xor h5 v5) v13) fun a5 =>
    S (Nat.xor (Nat.xor h6 v6) v14) fun a6 => S (Nat.xor (Nat.xor h7 v7) v15) fun a7 =>
    [a0, a1, a2, a3, a4, a5, a6, a7]
  | _ => []

def fastCompress (h m : List Nat) (t : Nat) (last : Bool) : List Nat :=
  match h with
  | [h0, h1, h2, h3, h4, h5, h6, h7] =>
    S (Nat.xor (nat_lit 0x510e527fade682d1) (Nat.mod t (nat_lit 18446744073709551616))) fun v12 =>
    S (Nat.xor (nat_lit 0x9b05688c2b3e6c1f) (Nat.div t (nat_lit 18446744073709551616))) fun v13 =>
    finish h0 h1 h2 h3 h4 h5 h6 h7 (fastRounds m (start h0 h1 h2 h3 h4 h5 h6 h7 v12 v13 last))
  | _ => []

def swing (d a n : Nat) : Nat := rotr (d ^^^ a) n

/-- What `mix` makes of its four words. -/
def mix4 (a b c d x y : Nat) : Nat × Nat × Nat × Nat :=
  let a := add a b x
  let d := swing d a 32
  let c := add c d 0
  let b := swing b c 24
  let a := add a b y
  let d := swing d a 16
  let c := add c d 0
  let b := swing b c 63
  (a, b, c, d)

theorem fastAdd_eq (a b x : Nat) : fastAdd a b x = add a b x := by
  have e : word = 18446744073709551616 := by decide
  unfold add
  rw [e]
  rfl

theorem rot_of (x y n m k : Nat) (hm : 2 ^ n = m) (hk : 2 ^ (64 - n) = k) :
    (S (Nat.xor x y) fun d => Nat.add (Nat.div d m) (Nat.mul (Nat.mod d m) k)) = swing x y n := by
  rw [S_eq, swing, rotr, hm, hk]
  rfl

theorem fast32_eq (x y : Nat) : fast32 x y = swing x y 32 := rot_of x y 32 _ _ (by decide) (by decide)
theorem fast24_eq (x y : Nat) : fast24 x y = swing x y 24 := rot_of x y 24 _ _ (by decide) (by decide)
theorem fast16_eq (x y : Nat) : fast16 x y = swing x y 16 := rot_of x y 16 _ _ (by decide) (by decide)
theorem fast63_eq (x y : Nat) : fast63 x y = swing x y 63 := rot_of x y 63 _ _ (by decide) (by decide)

theorem fastG_eq {α : Type} (a b c d x y : Nat) (k : Nat → Nat → Nat → Nat → α) :
    fastG a b c d x y k = k (mix4 a b c d x y).1 (mix4 a b c d x y).2.1 (mix4 a b c d x y).2.2.1 (mix4 a b c d x y).2.2.2 := by
  simp only [fastG, S_eq, fastAdd_eq, fast32_eq, fast24_eq, fast16_eq, fast63_eq, mix4]

/-- The work vector `v` with four words replaced. -/
def put4 (v : List Nat) (a b c d A B C D : Nat) : List Nat := (((v.set a A).set b B).set c C).set d D

/-- Four different positions of a work vector. -/
structure Four (v : List Nat) (a b c d : Nat) : Prop where
  la : a < v.length
  lb : b < v.length
  lc : c < v.length
  ld : d < v.length
  ab : a ≠ b
  ac : a ≠ c
  ad : a ≠ d
  bc : b ≠ c
  bd : b ≠ d
  cd : c ≠ d

section
variable {v : List Nat} {a b c d : Nat} (h : Four v a b c d) (A B C D : Nat)
include h
theorem put4_a : (put4 v a b c d A B C D).getD a 0 = A := by
  have := h.la; have := h.ab; have := h.ac; have := h.ad
  simp [put4, List.getD_eq_getElem?_getD, *, Ne.symm]
theorem put4_b : (put4 v a b c d A B C D).getD b 0 = B := by
  have := h.lb; have := h.bc; have := h.bd
  simp [put4, List.getD_eq_getElem?_getD, *, Ne.symm]
theorem put4_c : (put4 v a b c d A B C D).getD c 0 = C := by
  have := h.lc; have := h.cd
  simp [put4, List.getD_eq_getElem?_getD, *, Ne.symm]
theorem put4_d : (put4 v a b c d A B C D).getD d 0 = D := by
  have := h.ld
  simp [put4, List.getD_eq_getElem?_getD, *]
theorem put4_set_a (X : Nat) : (put4 v a b c d A B C D).set a X = put4 v a b c d X B C D := by
  unfold put4
  rw [List.set_comm _ _ h.ad.symm, List.set_comm _ _ h.ac.symm, List.set_comm _ _ h.ab.symm, List.set_set]
theorem put4_set_b (X : Nat) : (put4 v a b c d A B C D).set b X = put4 v a b c d A X C D := by
  unfold put4
  rw [List.set_comm _ _ h.bd.symm, List.set_comm _ _ h.bc.symm, List.set_set]
theorem put4_set_c (X : Nat) : (put4 v a b c d A B C D).set c X = put4 v a b c d A B X D := by
  unfold put4
  rw [List.set_comm _ _ h.cd.symm, List.set_set]
theorem put4_set_d (X : Nat) : (put4 v a b c d A B C D).set d X = put4 v a b c d A B C X := by
  unfold put4
  rw [List.set_set]
theorem put4_same : put4 v a b c d (v.getD a 0) (v.getD b 0) (v.getD c 0) (v.getD d 0) = v := by
  have key : ∀ (l : List Nat) i, i < l.length → l.set i (l.getD i 0) = l := by
    intro l i hi
    rw [List.getD_eq_getElem?_getD, List.getElem?_eq_getElem hi]
    simp
  unfold put4
  rw [key _ _ h.la, key _ _ h.lb, key _ _ h.lc, key _ _ h.ld]
theorem plus_ab (x : Nat) : plus (put4 v a b c d A B C D) a b x = put4 v a b c d (add A B x) B C D := by
  rw [plus, put4_a h, put4_b h, put4_set_a h]
theorem plus_cd (x : Nat) : plus (put4 v a b c d A B C D) c d x = put4 v a b c d A B (add C D x) D := by
  rw [plus, put4_c h, put4_d h, put4_set_c h]
theorem turn_da (n : Nat) : turn (put4 v a b c d A B C D) d a n = put4 v a b c d A B C (swing D A n) := by
  rw [turn, put4_d h, put4_a h, put4_set_d h, swing]
theorem turn_bc (n : Nat) : turn (put4 v a b c d A B C D) b c n = put4 v a b c d A (swing B C n) C D := by
  rw [turn, put4_b h, put4_c h, put4_set_b h, swing]
theorem mix_put (x y : Nat) : mix (put4 v a b c d A B C D) a b c d x y = put4 v a b c d
    (mix4 A B C D x y).1 (mix4 A B C D x y).2.1 (mix4 A B C D x y).2.2.1 (mix4 A B C D x y).2.2.2 := by
  unfold mix mix4
  simp only []
  rw [plus_ab h, turn_da h, plus_cd h, turn_bc h, plus_ab h, turn_da h, plus_cd h, turn_bc h]
theorem mix_eq (x y : Nat) : mix v a b c d x y = put4 v a b c d
    (mix4 (v.getD a 0) (v.getD b 0) (v.getD c 0) (v.getD d 0) x y).1
    (mix4 (v.getD a 0) (v.getD b 0) (v.getD c 0) (v.getD d 0) x y).2.1
    (mix4 (v.getD a 0) (v.getD b 0) (v.getD c 0) (v.getD d 0) x y).2.2.1
    (mix4 (v.getD a 0) (v.getD b 0) (v.getD c 0) (v.getD d 0) x y).2.2.2 := by
  rw [← mix_put h, put4_same h]
end

theorem four (v : List Nat) (hv : v.length = 16) (a b c d : Nat) (h : (a < 16 ∧ b < 16 ∧ c < 16 ∧ d < 16) ∧ a ≠ b ∧ a ≠ c ∧ a ≠ d ∧
    b ≠ c ∧ b ≠ d ∧ c ≠ d) : Four v a b c d :=
  ⟨by omega, by omega, by omega, by omega, h.2.1, h.2.2.1, h.2.2.2.1, h.2.2.2.2.1, h.2.2.2.2.2.1, h.2.2.2.2.2.2⟩

section
variable (v0 v1 v2 v3 v4 v5 v6 v7 v8 v9 v10 v11 v12 v13 v14 v15 x y : Nat)
theorem mixA : mix [v0, v1, v2, v3, v4, v5, v6, v7, v8, v9, v10, v11, v12, v13, v14, v15] 0 4 8 12 x y =
    [(mix4 v0 v4 v8 v12 x y).1, v1, v2, v3, (mix4 v0 v4 v8 v12 x y).2.1, v5, v6, v7, (mix4 v0 v4 v8 v12 x y).2.2.1, v9, v10, v11,
      (mix4 v0 v4 v8 v12 x y).2.2.2, v13, v14, v15] :=
  mix_eq (four _ rfl _ _ _ _ (by decide)) x y
theorem mixB : mix [v0, v1, v2, v3, v4, v5, v6, v7, v8, v9, v10, v11, v12, v13, v14, v15] 1 5 9 13 x y =
    [v0, (mix4 v1 v5 v9 v13 x y).1, v2, v3, v4, (mix4 v1 v5 v9 v13 x y).2.1, v6, v7, v8, (mix4 v1 v5 v9 v13 x y).2.2.1, v10, v11,
      v12, (mix4 v1 v5 v9 v13 x y).2.2.2, v14, v15] :=
  mix_eq (four _ rfl _ _ _ _ (by decide)) x y
theorem mixC : mix [v0, v1, v2, v3, v4, v5, v6, v7, v8, v9, v10, v11, v12, v13, v14, v15] 2 6 10 14 x y =
    [v0, v1, (mix4 v2 v6 v10 v14 x y).1, v3, v4, v5, (mix4 v2 v6 v10 v14 x y).2.1, v7, v8, v9, (mix4 v2 v6 v10 v14 x y).2.2.1, v11,
      v12, v13, (mix4 v2 v6 v10 v14 x y).2.2.2, v15] :=
  mix_eq (four _ rfl _ _ _ _ (by decide)) x y
theorem mixD : mix [v0, v1, v2, v3, v4, v5, v6, v7, v8, v9, v10, v11, v12, v13, v14, v15] 3 7 11 15 x y =
    [v0, v1, v2, (mix4 v3 v7 v11 v15 x y).1, v4, v5, v6, (mix4 v3 v7 v11 v15 x y).2.1, v8, v9, v10, (mix4 v3 v7 v11 v15 x y).2.2.1,
      v12, v13, v14, (mix4 v3 v7 v11 v15 x y).2.2.2] :=
  mix_eq (four _ rfl _ _ _ _ (by decide)) x y
theorem mixE : mix [v0, v1, v2, v3, v4, v5, v6, v7, v8, v9, v10, v11, v12, v13, v14, v15] 0 5 10 15 x y =
    [(mix4 v0 v5 v10 v15 x y).1, v1, v2, v3, v4, (mix4 v0 v5 v10 v15 x y).2.1, v6, v7, v8, v9, (mix4 v0 v5 v10 v15 x y).2.2.1, v11,
      v12, v13, v14, (mix4 v0 v5 v10 v15 x y).2.2.2] :=
  mix_eq (four _ rfl _ _ _ _ (by decide)) x y
theorem mixF : mix [v0, v1, v2, v3, v4, v5, v6, v7, v8, v9, v10, v11, v12, v13, v14, v15] 1 6 11 12 x y =
    [v0, (mix4 v1 v6 v11 v12 x y).1, v2, v3, v4, v5, (mix4 v1 v6 v11 v12 x y).2.1, v7, v8, v9, v10, (mix4 v1 v6 v11 v12 x y).2.2.1,
      (mix4 v1 v6 v11 v12 x y).2.2.2, v13, v14, v15] :=
  mix_eq (four _ rfl _ _ _ _ (by decide)) x y
theorem mixG : mix [v0, v1, v2, v3, v4, v5, v6, v7, v8, v9, v10, v11, v12, v13, v14, v15] 2 7 8 13 x y =
    [v0, v1, (mix4 v2 v7 v8 v13 x y).1, v3, v4, v5, v6, (mix4 v2 v7 v8 v13 x y).2.1, (mix4 v2 v7 v8 v13 x y).2.2.1, v9, v10, v11,
      v12, (mix4 v2 v7 v8 v13 x y).2.2.2, v14, v15] :=
  mix_eq (four _ rfl _ _ _ _ (by decide)) x y
theorem mixH : mix [v0, v1, v2, v3, v4, v5, v6, v7, v8, v9, v10, v11, v12, v13, v14, v15] 3 4 9 14 x y =
    [v0, v1, v2, (mix4 v3 v4 v9 v14 x y).1, (mix4 v3 v4 v9 v14 x y).2.1, v5, v6, v7, v8, (mix4 v3 v4 v9 v14 x y).2.2.1, v10, v11,
      v12, v13, (mix4 v3 v4 v9 v14 x y).2.2.2, v15] :=
  mix_eq (four _ rfl _ _ _ _ (by decide)) x y
end

theorem len16 {l : List Nat} (h : l.length = 16) : ∃ v0 v1 v2 v3 v4 v5 v6 v7 v8 v9 v10 v11 v12 v13 v14 v15,
    l = [v0, v1, v2, v3, v4, v5, v6, v7, v8, v9, v10, v11, v12, v13, v14, v15] := by
  match l, h with
  | [v0, v1, v2, v3, v4, v5, v6, v7, v8, v9, v10, v11, v12, v13, v14, v15], _ => exact ⟨_, _, _, _, _, _, _, _, _, _, _, _, _, _, _, _, rfl⟩

theorem len8 {l : List Nat} (h : l.length = 8) : ∃ v0 v1 v2 v3 v4 v5 v6 v7, l = [v0, v1, v2, v3, v4, v5, v6, v7] := by
  match l, h with
  | [v0, v1, v2, v3, v4, v5, v6, v7], _ => exact ⟨_, _, _, _, _, _, _, _, rfl⟩

theorem mix_length (v : List Nat) (a b c d x y : Nat) : (mix v a b c d x y).length = v.length := by simp [mix, plus, turn]

theorem round_length (m v s : List Nat) : (round m v s).length = v.length := by simp [round, mix_length]

/-- A round with the schedule `s`. -/
def schedRound (m v s : List Nat) : List Nat :=
  fastRound v (m.getD (s.getD 0 0) 0) (m.getD (s.getD 1 0) 0) (m.getD (s.getD 2 0) 0) (m.getD (s.getD 3 0) 0)
    (m.getD (s.getD 4 0) 0) (m.getD (s.getD 5 0) 0) (m.getD (s.getD 6 0) 0) (m.getD (s.getD 7 0) 0)
    (m.getD (s.getD 8 0) 0) (m.getD (s.getD 9 0) 0) (m.getD (s.getD 10 0) 0) (m.getD (s.getD 11 0) 0)
    (m.getD (s.getD 12 0) 0) (m.getD (s.getD 13 0) 0) (m.getD (s.getD 14 0) 0) (m.getD (s.getD 15 0) 0)

theorem schedRound_eq (m v s : List Nat) (hv : v.length = 16) : schedRound m v s = round m v s := by
  obtain ⟨v0, v1, v2, v3, v4, v5, v6, v7, v8, v9, v10, v11, v12, v13, v14, v15, rfl⟩ := len16 hv
  unfold schedRound round
  simp only []
  generalize m.getD (s.getD 0 0) 0 = x0; generalize m.getD (s.getD 1 0) 0 = x1
  generalize m.getD (s.getD 2 0) 0 = x2; generalize m.getD (s.getD 3 0) 0 = x3
  generalize m.getD (s.getD 4 0) 0 = x4; generalize m.getD (s.getD 5 0) 0 = x5
  generalize m.getD (s.getD 6 0) 0 = x6; generalize m.getD (s.getD 7 0) 0 = x7
  generalize m.getD (s.getD 8 0) 0 = x8; generalize m.getD (s.getD 9 0) 0 = x9
  generalize m.getD (s.getD 10 0) 0 = x10; generalize m.getD (s.getD 11 0) 0 = x11
  generalize m.getD (s.getD 12 0) 0 = x12; generalize m.getD (s.getD 13 0) 0 = x13
  generalize m.getD (s.getD 14 0) 0 = x14; generalize m.getD (s.getD 15 0) 0 = x15
  rw [mixA, mixB, mixC, mixD, mixE, mixF, mixG, mixH]
  simp only [fastRound, fastG_eq]

theorem foldl_round_length (m : List Nat) (l : List (List Nat)) (v : List Nat) : (l.foldl (round m) v).length = v.length := by
  induction l generalizing v with
  | nil => rfl
  | cons s l ih => simp [ih, round_length]

theorem foldl_sched (m : List Nat) (l : List (List Nat)) (v : List Nat) (hv : v.length = 16) :
    l.foldl (schedRound m) v = l.foldl (round m) v := by
  induction l generalizing v with
  | nil => rw [List.foldl_nil, List.foldl_nil]
  | cons s l ih =>
    rw [List.foldl_cons, List.foldl_cons, schedRound_eq _ _ _ hv]
    exact ih _ (by rw [round_length, hv])

theorem fastRounds_eq (m v : List Nat) (hm : m.length = 16) (hv : v.length = 16) :
    fastRounds m v = sigma.foldl (round m) v := by
  rw [← foldl_sched m sigma v hv]
  obtain ⟨m0, m1, m2, m3, m4, m5, m6, m7, m8, m9, m10, m11, m12, m13, m14, m15, rfl⟩ := len16 hm
  simp only [sigma, List.foldl_cons, List.foldl_nil, fastRounds]
  rfl

theorem start_eq (h0 h1 h2 h3 h4 h5 h6 h7 t : Nat) (last : Bool) :
    (let v := [h0, h1, h2, h3, h4, h5, h6, h7] ++ iv
     let v := v.set 12 (v.getD 12 0 ^^^ t % word)
     let v := v.set 13 (v.getD 13 0 ^^^ t / word)
     if last then v.set 14 (v.getD 14 0 ^^^ (word - 1)) else v) =
    start h0 h1 h2 h3 h4 h5 h6 h7 (0x510e527fade682d1 ^^^ t % 18446744073709551616) (0x9b05688c2b3e6c1f ^^^ t / 18446744073709551616)
      last := by
  have e : word = 18446744073709551616 := by decide
  rw [e]
  generalize t % 18446744073709551616 = x
  generalize t / 18446744073709551616 = y
  cases last <;> simp [iv, start]

theorem finish_eq (h0 h1 h2 h3 h4 h5 h6 h7 : Nat) (u : List Nat) (hu : u.length = 16) : finish h0 h1 h2 h3 h4 h5 h6 h7 u =
    (List.range 8).map fun i => [h0, h1, h2, h3, h4, h5, h6, h7].getD i 0 ^^^ u.getD i 0 ^^^ u.getD (i + 8) 0 := by
  obtain ⟨v0, v1, v2, v3, v4, v5, v6, v7, v8, v9, v10, v11, v12, v13, v14, v15, rfl⟩ := len16 hu
  simp only [finish, S_eq]
  rfl

theorem fastCompress_eq (h m : List Nat) (t : Nat) (last : Bool) (hh : h.length = 8) (hm : m.length = 16) :
    fastCompress h m t last = compress h m t last := by
  obtain ⟨h0, h1, h2, h3, h4, h5, h6, h7, rfl⟩ := len8 hh
  have e := start_eq h0 h1 h2 h3 h4 h5 h6 h7 t last
  unfold compress
  simp only [] at e ⊢
  rw [e]
  simp only [fastCompress, S_eq]
  rw [finish_eq _ _ _ _ _ _ _ _ _ (by rw [fastRounds_eq _ _ hm rfl, foldl_round_length]; rfl), fastRounds_eq _ _ hm rfl]
  rfl

theorem compress_length (h m : List Nat) (t : Nat) (last : Bool) : (compress h m t last).length = 8 := by simp [compress]

/-- The next word of a message and the rest. -/
def fastWord {α : Type} (msg : List Nat) (k : Nat → List Nat → α) : α :=
  match msg with
  | b0 :: b1 :: b2 :: b3 :: b4 :: b5 :: b6 :: b7 :: rest =>
    S (Nat.add b0 (Nat.mul (nat_lit 256) (Nat.add b1 (Nat.mul (nat_lit 256) (Nat.add b2 (Nat.mul (nat_lit 256)
      (Nat.add b3 (Nat.mul (nat_lit 256) (Nat.add b4 (Nat.mul (nat_lit 256) (Nat.add b5 (Nat.mul (nat_lit 256)
      (Nat.add b6 (Nat.mul (nat_lit 256) b7)))))))))))))) fun w => k w rest
  | short => S (little short) fun w => k w []

def fastWords {α : Type} : Nat → List Nat → (List Nat → List Nat → α) → α
  | 0, msg, k => k [] msg
  | n + 1, msg, k => fastWord msg fun w rest => fastWords n rest fun ws rest => k (w :: ws) rest

theorem little_take8 (msg : List Nat) {α : Type} (k : Nat → List Nat → α) :
    fastWord msg k = k (little (msg.take 8)) (msg.drop 8) := by
  match msg with
  | b0 :: b1 :: b2 :: b3 :: b4 :: b5 :: b6 :: b7 :: rest =>
    simp only [fastWord, S_eq]
    congr 1
  | [] => simp only [fastWord, S_eq, List.take_nil, List.drop_nil]
  | [_] => simp only [fastWord, S_eq]; rfl
  | [_, _] => simp only [fastWord, S_eq]; rfl
  | [_, _, _] => simp only [fastWord, S_eq]; rfl
  | [_, _, _, _] => simp only [fastWord, S_eq]; rfl
  | [_, _, _, _, _] => simp only [fastWord, S_eq]; rfl
  | [_, _, _, _, _, _] => simp only [fastWord, S_eq]; rfl
  | [_, _, _, _, _, _, _] => simp only [fastWord, S_eq]; rfl

theorem fastWords_eq {α : Type} (n : Nat) (msg : List Nat) (k : List Nat → List Nat → α) :
    fastWords n msg k = k ((List.range n).map fun i => little ((msg.drop (8 * i)).take 8)) (msg.drop (8 * n)) := by
  induction n generalizing msg k with
  | zero => simp [fastWords]
  | succ n ih =>
    rw [fastWords, little_take8, ih, List.drop_drop, List.range_succ_eq_map, List.map_cons, List.map_map]
    have e : 8 + 8 * n = 8 * (n + 1) := by omega
    rw [e]
    congr 2
    apply List.map_congr_left
    intro i _
    simp only [Function.comp, List.drop_drop]
    congr 3
    simp only [Nat.succ_eq_add_one]; omega

/-- `n` is the number of bytes left, `fuel` bounds the number of blocks. -/
def fastAbsorb : Nat → List Nat → Nat → Nat → List Nat → List Nat
  | 0, h, _, _, _ => h
  | fuel + 1, h, t, n, msg => cond (Nat.ble n (nat_lit 128))
      (fastWords 16 msg fun m _ => S (Nat.add t n) fun t' => fastCompress h m t' true)
      (fastWords 16 msg fun m rest => S (Nat.add t (nat_lit 128)) fun t' => S (Nat.sub n (nat_lit 128)) fun n' =>
        fastAbsorb fuel (fastCompress h m t' false) t' n' rest)

theorem words_length (b : List Nat) : (words b).length = 16 := by simp [words]

theorem fastAbsorb_eq (fuel : Nat) (h : List Nat) (t : Nat) (msg : List Nat) (hh : h.length = 8) (hf : msg.length ≤ 128 * fuel)
    (hp : 0 < fuel) : fastAbsorb fuel h t msg.length msg = absorb h t msg := by
  induction fuel generalizing h t msg with
  | zero => omega
  | succ fuel ih =>
    rw [fastAbsorb, absorb]
    by_cases hl : msg.length ≤ 128
    · have : Nat.ble msg.length 128 = true := Nat.ble_eq.mpr hl
      simp only [this, hl, if_true, cond_true, fastWords_eq, S_eq]
      exact fastCompress_eq _ _ _ _ hh (words_length msg)
    · have : Nat.ble msg.length 128 = false := by
        cases hb : Nat.ble msg.length 128 with
        | false => rfl
        | true => exact absurd (Nat.ble_eq.mp hb) hl
      simp only [this, hl, if_false, cond_false, fastWords_eq, S_eq]
      have e1 : (List.range 16).map (fun i => little ((msg.drop (8 * i)).take 8)) = words (msg.take 128) := by
        unfold words
        apply List.map_congr_left
        intro i hi
        rw [List.mem_range] at hi
        rw [List.drop_take, List.take_take, Nat.min_eq_left (by omega)]
      have e2 : Nat.sub msg.length 128 = (msg.drop (8 * 16)).length := by simp
      rw [e1, e2, fastCompress_eq _ _ _ _ hh (words_length _)]
      exact ih _ _ _ (compress_length ..) (by simp; omega) (by omega)

/-- The 32 bytes of four words. -/
def bytesOf (h : List Nat) : List Nat :=
  match h with
  | h0 :: h1 :: h2 :: h3 :: _ =>
    let b := fun w k => Nat.mod (Nat.div w k) (nat_lit 256)
    [b h0 (nat_lit 1), b h0 (nat_lit 256), b h0 (nat_lit 65536), b h0 (nat_lit 16777216), b h0 (nat_lit 4294967296),
      b h0 (nat_lit 1099511627776), b h0 (nat_lit 281474976710656), b h0 (nat_lit 72057594037927936),
     b h1 (nat_lit 1), b h1 (nat_lit 256), b h1 (nat_lit 65536), b h1 (nat_lit 16777216), b h1 (nat_lit 4294967296),
      b h1 (nat_lit 1099511627776), b h1 (nat_lit 281474976710656), b h1 (nat_lit 72057594037927936),
     b h2 (nat_lit 1), b h2 (nat_lit 256), b h2 (nat_lit 65536), b h2 (nat_lit 16777216), b h2 (nat_lit 4294967296),
      b h2 (nat_lit 1099511627776), b h2 (nat_lit 281474976710656), b h2 (nat_lit 72057594037927936),
     b h3 (nat_lit 1), b h3 (nat_lit 256), b h3 (nat_lit 65536), b h3 (nat_lit 16777216), b h3 (nat_lit 4294967296),
      b h3 (nat_lit 1099511627776), b h3 (nat_lit 281474976710656), b h3 (nat_lit 72057594037927936)]
  | _ => []

def count : List Nat → Nat → Nat
  | [], n => n
  | _ :: l, n => S (Nat.succ n) fun n => count l n

theorem count_eq (l : List Nat) (n : Nat) : count l n = l.length + n := by
  induction l generalizing n with
  | nil => simp [count]
  | cons a l ih => rw [count, S_eq, ih]; simp; omega

def fastSum (msg : List Nat) : List Nat :=
  S (count msg 0) fun n => bytesOf (fastAbsorb (Nat.succ (Nat.div n (nat_lit 128))) [nat_lit 0x6a09e667f2bdc928,
    nat_lit 0xbb67ae8584caa73b, nat_lit 0x3c6ef372fe94f82b, nat_lit 0xa54ff53a5f1d36f1, nat_lit 0x510e527fade682d1,
    nat_lit 0x9b05688c2b3e6c1f, nat_lit 0x1f83d9abfb41bd6b, nat_lit 0x5be0cd19137e2179] 0 n msg)

theorem absorb_length (h : List Nat) (t : Nat) (msg : List Nat) : (absorb h t msg).length = 8 := by
  fun_induction absorb with
  | case1 => exact compress_length ..
  | case2 _ _ _ _ ih => exact ih

theorem bytesOf_eq (h : List Nat) (hh : h.length = 8) :
    bytesOf h = (List.range 32).map fun i => h.getD (i / 8) 0 / 256 ^ (i % 8) % 256 := by
  obtain ⟨h0, h1, h2, h3, h4, h5, h6, h7, rfl⟩ := len8 hh
  rfl

theorem fastSum_eq (msg : List Nat) : fastSum msg = sum256 msg := by
  unfold fastSum sum256
  rw [S_eq, count_eq, Nat.add_zero, fastAbsorb_eq _ _ _ _ rfl (by
    show msg.length ≤ 128 * (msg.length / 128 + 1)
    omega) (by exact Nat.succ_pos _), bytesOf_eq _ (absorb_length ..)]
  rfl

/-- RFC 7693 A.3-like check value: the digest of "abc". -/
example : sum256 [97, 98, 99] = [
    0xbd, 0xdd, 0x81, 0x3c, 0x63, 0x42, 0x39, 0x72, 0x31, 0x71, 0xef, 0x3f, 0xee, 0x98, 0x57, 0x9b,
    0x94, 0x96, 0x4e, 0x3b, 0xb1, 0xcb, 0x3e, 0x42, 0x72, 0x62, 0xc8, 0xc0, 0x68, 0xd5, 0x23, 0x19] := by
  rw [← fastSum_eq]; decide +kernel

/-- A message of several blocks: 300 zero bytes. -/
example : sum256 (List.replicate 300 0) = [
    0x3b, 0x7f, 0xa2, 0x4c, 0x99, 0x51, 0x6c, 0xfe, 0xe0, 0xcc, 0x68, 0xa8, 0x67, 0x0e, 0xae, 0x28,
    0xe9, 0xf4, 0x63, 0x64, 0x60, 0xb4, 0xa8, 0xc0, 0x9f, 0xee, 0xef, 0x54, 0x09, 0x50, 0x4b, 0xff] := by
  rw [← fastSum_eq]; decide +kernel

/-- The empty message. -/
example : sum256 [] = [
    0x0e, 0x57, 0x51, 0xc0, 0x26, 0xe5, 0x43, 0xb2, 0xe8, 0xab, 0x2e, 0xb0, 0x60, 0x99, 0xda, 0xa1,
    0xd1, 0xe5, 0xdf, 0x47, 0x77, 0x8f, 0x77, 0x87, 0xfa, 0xab, 0x45, 0xcd, 0xf1, 0x2f, 0xe3, 0xa8] := by
  rw [← fastSum_eq]; decide +kernel

end Nimiq.Blake
