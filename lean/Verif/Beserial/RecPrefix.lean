import Verif.Beserial.RecTotal
/-!
# C138: streams of declared types

What is read from a stream is determined by the bytes, and input that is cut off is rejected.
-/
namespace Nimiq.Beserial.Rec

/-- C138. No encoding is the beginning of another one, and no two values have the same. -/
theorem C138_unique (env : Env) (hE : ∀ x, (env x).Fine env) (t : GTy) (ht : t.Fine env) (ts : Tags) (v w : Val) (s r : Bytes)
    (hv : Enc env t ts v s) (hw : Enc env t ts w (s ++ r)) : v = w ∧ r = [] := by
  obtain ⟨f1, h1⟩ := enc_value hE hv ht
  obtain ⟨f2, h2⟩ := enc_value hE hw ht
  have e1 := h1 (max f1 f2) (by omega) r
  have e2 := h2 (max f1 f2) (by omega) []
  rw [List.append_nil, e1] at e2
  cases e2
  exact ⟨rfl, rfl⟩

/-- C138. An encoding that lacks its end is not decoded, to no value at all. -/
theorem C138_truncated (env : Env) (hE : ∀ x, (env x).Fine env) (t : GTy) (ht : t.Fine env) (ts : Tags) (v : Val) (p q : Bytes)
    (hv : Enc env t ts v (p ++ q)) (hq : q ≠ []) (f : Nat) (w : Val) (rest : Bytes) :
    value env f false t ts p ≠ some (.ok w rest) := by
  intro h
  obtain ⟨s, rfl, he⟩ := value_enc env f false t ts p w rest h
  rw [List.append_assoc] at hv
  have := (C138_unique env hE t ht ts w v s (rest ++ q) he hv).2
  exact hq (List.append_eq_nil_iff.mp this).2

/-- C138. Values written one after the other are read back one after the other. -/
theorem C138_stream (env : Env) (hE : ∀ x, (env x).Fine env) (t : GTy) (ht : t.Fine env) (vs : List Val) (s : Bytes) (he : EncAll env t vs s) :
    ∃ f, ∀ g, f ≤ g → ∀ rest, elems (value env g false t {}) vs.length (s ++ rest) = some (.ok vs rest) :=
  encAll_elems hE he ht

mutual
/-- A value has one encoding at most. -/
theorem enc_det {env : Env} : ∀ {t : GTy} {ts : Tags} {v : Val} {s r : Bytes}, Enc env t ts v s → Enc env t ts v r → s = r
  | _, _, _, _, _, .num .., .num .. => rfl
  | _, _, _, _, _, .bool .., .bool .. => rfl
  | _, _, _, _, _, .str _ _ _ hp, .str _ _ _ hq => by rw [hp] at hq; cases hq; rfl
  | _, _, _, _, _, .byteSlice _ _ _ hp, .byteSlice _ _ _ hq => by rw [hp] at hq; cases hq; rfl
  | _, _, _, _, _, .byteArr .., .byteArr .. => rfl
  | _, _, _, _, _, .arr _ _ _ _ _ h _, .arr _ _ _ _ _ h' _ => encAll_det h h'
  | _, _, _, _, _, .slice _ _ _ _ _ hp h, .slice _ _ _ _ _ hq h' => by rw [hp] at hq; cases hq; rw [encAll_det h h']
  | _, _, _, _, _, .absent .., .absent .. => rfl
  | _, _, _, _, _, .present _ _ _ _ _ h, .present _ _ _ _ _ h' => by rw [enc_det h h']
  | _, _, _, _, _, .present _ _ _ _ ho _, .ptr _ _ _ _ ho' _ => by rw [ho] at ho'; cases ho'
  | _, _, _, _, _, .ptr _ _ _ _ ho _, .present _ _ _ _ ho' _ => by rw [ho] at ho'; cases ho'
  | _, _, _, _, _, .ptr _ _ _ _ _ h, .ptr _ _ _ _ _ h' => enc_det h h'
  | _, _, _, _, _, .struct _ _ _ _ h, .struct _ _ _ _ h' => encFields_det h h'
  | _, _, _, _, _, .name _ _ _ _ h, .name _ _ _ _ h' => enc_det h h'
theorem encAll_det {env : Env} : ∀ {t : GTy} {vs : List Val} {s r : Bytes}, EncAll env t vs s → EncAll env t vs r → s = r
  | _, _, _, _, .nil _, .nil _ => rfl
  | _, _, _, _, .cons _ _ _ _ _ h hs, .cons _ _ _ _ _ h' hs' => by rw [enc_det h h', encAll_det hs hs']
theorem encFields_det {env : Env} : ∀ {fs : GFields} {vs : List Val} {s r : Bytes}, EncFields env fs vs s → EncFields env fs vs r → s = r
  | _, _, _, _, .nil, .nil => rfl
  | _, _, _, _, .cons _ _ _ _ _ _ _ _ _ ht h hs, .cons _ _ _ _ _ _ _ _ _ ht' h' hs' => by
    rw [ht] at ht'
    cases ht'
    rw [enc_det h h', encFields_det hs hs']
end

/-- C138. A value has one encoding, for every declaration. -/
theorem C138_deterministic (env : Env) (t : GTy) (ts : Tags) (v : Val) (s r : Bytes) (hs : Enc env t ts v s) (hr : Enc env t ts v r) :
    s = r := enc_det hs hr

/-- The bytes of the list of two, cut off after the flag: `C138_truncated` applies. -/
example (f : Nat) (w : Val) (rest : Bytes) : value listEnv f false (.name 0) {} [7, 1] ≠ some (.ok w rest) := by
  have last : Enc listEnv (.name 0) { optional := true } (.seq [.num 8, .nil]) [8, 0] :=
    .name _ _ _ _ (.struct _ _ _ _ (.cons true none (.num .u8) _ {} (.num 8) _ [8] [0] rfl (.num .u8 {} 8 (by decide))
      (.cons true _ _ _ _ .nil [] [0] [] listTag (.absent _ _ rfl) .nil)))
  exact C138_truncated listEnv listEnv_fine (.name 0) trivial {} (.seq [.num 7, .ref (.seq [.num 8, .nil])]) [7, 1] [8, 0]
    (.name _ _ _ _ (.struct _ _ _ _ (.cons true none (.num .u8) _ {} (.num 7) _ [7] [1, 8, 0] rfl (.num .u8 {} 7 (by decide))
      (.cons true _ _ _ _ (.ref _) [] [1, 8, 0] [] listTag (.present _ _ _ [8, 0] rfl last) .nil)))) (by simp) f w rest

end Nimiq.Beserial.Rec
