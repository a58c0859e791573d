import Verif.Tree.NibblesProps
import Verif.Tree.Model
/-!
# C137: hashes of tree nodes built by hand

`Branch`, `Leaf` and `Child` are exported structs with exported fields, and `Hash`, `MarshalTo` and `PutChild` are exported
methods: a program can put any bytes into the nibbles, any child into any slot. This is node.go over such nodes. (The tree's own
nodes, `Model.lean`, are a special case: `C137_tree`.)
-/
namespace Nimiq.Tree.Hand

/-- node.go:59-63 `Child` -/
structure Child where
  suffix : Bytes
  hash : Hash32
  exist : Bool

/-- node.go:15-18 `Branch`, node.go:66-69 `Leaf` -/
inductive Node where
  | leaf (pfx value : Bytes)
  | branch (pfx : Bytes) (children : Nib → Child)

/-- `range n.Children` -/
def slots (ch : Nib → Child) : List Child := (List.finRange 16).map ch

/-- node.go:39-44: the loop that counts, with its `uint8` -/
def countLoop : List Child → UInt8 → UInt8
  | [], n => n
  | c :: cs, n => countLoop cs (if c.exist then n + 1 else n)

/-- node.go:46-53: the loop that writes the children -/
def childLoop : List Child → Out Bytes
  | [] => .ok []
  | c :: cs =>
    if c.exist = false then childLoop cs
    else do
      let h ← hexBytes c.suffix
      let r ← childLoop cs
      return [UInt8.ofNat c.suffix.length] ++ h ++ c.hash.val ++ r

/-- node.go:76-80 `Leaf.MarshalTo`: what it writes if it does not panic -/
def marshalTo (pfx value : Bytes) : Out Bytes := do
  let h ← hexBytes pfx
  return [0xFF, 40] ++ h ++ value

/-- node.go:36-53: what `Branch.Hash` writes to the hasher -/
def branchBytes (pfx : Bytes) (ch : Nib → Child) : Out Bytes := do
  let h ← hexBytes pfx
  let r ← childLoop (slots ch)
  return [0x00, UInt8.ofNat pfx.length] ++ h ++ [countLoop (slots ch) 0] ++ r

/-- What is hashed. -/
def bytes : Node → Out Bytes
  | .leaf p v => marshalTo p v
  | .branch p ch => branchBytes p ch

/-- node.go:35-56, 83-88 `Hash` -/
def hash (H : Bytes → Hash32) (n : Node) : Out Hash32 := do
  let b ← bytes n
  return H b

/-- node.go:21-27 `PutChild`: `n.Children[suffix[0]] = …` -/
def putChild (ch : Nib → Child) (suffix : Bytes) (h : Hash32) : Out (Nib → Child) :=
  match suffix with
  | [] => .panic
  | d :: _ =>
    if hd : d.toNat < 16 then .ok fun j => if j = ⟨d.toNat, hd⟩ then ⟨suffix, h, true⟩ else ch j
    else .panic

/-! ## Specification -/

/-- Every element is a nibble. -/
def Nibs (s : Bytes) : Prop := ∀ n ∈ s, n.toNat < 16

instance (s : Bytes) : Decidable (Nibs s) := List.decidableBAll _ _

/-- The digit of a nibble. -/
def digit (n : UInt8) : UInt8 := UInt8.ofNat ("0123456789abcdef".toList.getD n.toNat ' ').toNat

/-- The children a branch has: suffix and hash, by slot. -/
def kids (ch : Nib → Child) : List (Bytes × Hash32) := ((slots ch).filter (·.exist)).map fun c => (c.suffix, c.hash)

/-- The nibbles are nibbles. -/
def Node.Valid : Node → Prop
  | .leaf p _ => Nibs p
  | .branch p ch => Nibs p ∧ ∀ i, (ch i).exist = true → Nibs (ch i).suffix

/-- A node as the tree builds them: leaves have the 40 nibbles of a key, children are in the slot their suffix begins with, and
suffixes are shorter than 256. -/
def Node.Proper : Node → Prop
  | .leaf p _ => p.length = 40
  | .branch _ ch => ∀ i, (ch i).exist = true → (∃ r, (ch i).suffix = UInt8.ofNat i.val :: r) ∧ (ch i).suffix.length < 256

/-- The same node, up to what is in slots without a child. -/
def Node.Same : Node → Node → Prop
  | .leaf p v, .leaf p' v' => p = p' ∧ v = v'
  | .branch p ch, .branch p' ch' => p = p' ∧ ∀ i, (ch i).exist = (ch' i).exist ∧
      ((ch i).exist = true → (ch i).suffix = (ch' i).suffix ∧ (ch i).hash = (ch' i).hash)
  | _, _ => False

/-! ## Lemmas -/

theorem hexBytes_iff (s r : Bytes) : hexBytes s = .ok r ↔ Nibs s ∧ r = s.map digit := by
  have h : hexBytes s = if Nibs s then .ok (s.map digit) else .panic := C08_hexBytes s
  constructor
  · intro e
    rw [e] at h
    split at h
    · rename_i hn
      simp only [Out.ok.injEq] at h
      exact ⟨hn, h⟩
    · cases h
  · rintro ⟨hn, rfl⟩
    rw [h, if_pos hn]

theorem hexBytes_panic (s : Bytes) : hexBytes s = .panic ↔ ¬ Nibs s := by
  have h : hexBytes s = if Nibs s then .ok (s.map digit) else .panic := C08_hexBytes s
  constructor
  · intro e hn
    rw [h, if_pos hn] at e
    cases e
  · intro hn
    rw [h, if_neg hn]

theorem digit_inj {a b : UInt8} (ha : a.toNat < 16) (hb : b.toNat < 16) (h : digit a = digit b) : a = b := by
  have key : ∀ x y : Fin 16, UInt8.ofNat ("0123456789abcdef".toList.getD x.val ' ').toNat =
      UInt8.ofNat ("0123456789abcdef".toList.getD y.val ' ').toNat → x = y := by decide +kernel
  have := key ⟨_, ha⟩ ⟨_, hb⟩ h
  exact UInt8.toNat.inj (by simpa using this)

theorem digit_ge {a : UInt8} (ha : a.toNat < 16) : 48 ≤ (digit a).toNat := by
  have key : ∀ x : Fin 16, 48 ≤ (UInt8.ofNat ("0123456789abcdef".toList.getD x.val ' ').toNat).toNat := by decide +kernel
  exact key ⟨_, ha⟩

theorem map_digit_inj : ∀ {a b : Bytes}, Nibs a → Nibs b → a.map digit = b.map digit → a = b
  | [], [], _, _, _ => rfl
  | [], _ :: _, _, _, h => by simp at h
  | _ :: _, [], _, _, h => by simp at h
  | x :: a, y :: b, ha, hb, h => by
    simp only [List.map_cons, List.cons.injEq] at h
    rw [digit_inj (ha x (by simp)) (hb y (by simp)) h.1,
      map_digit_inj (fun n hn => ha n (by simp [hn])) (fun n hn => hb n (by simp [hn])) h.2]

/-- What the loop writes. -/
def entries (l : List (Bytes × Hash32)) : Bytes := (l.map fun k => [UInt8.ofNat k.1.length] ++ k.1.map digit ++ k.2.val).flatten

theorem childLoop_iff : ∀ (l : List Child) (r : Bytes), childLoop l = .ok r ↔
    (∀ c ∈ l, c.exist = true → Nibs c.suffix) ∧ r = entries ((l.filter (·.exist)).map fun c => (c.suffix, c.hash)) := by
  intro l
  induction l with
  | nil =>
    intro r
    constructor
    · intro h
      simp only [childLoop, Out.ok.injEq] at h
      exact ⟨(fun _ h => by cases h), h.symm⟩
    · rintro ⟨-, rfl⟩
      rfl
  | cons c l ih =>
    intro r
    rw [childLoop]
    by_cases hc : c.exist = false
    · rw [if_pos hc, ih]
      simp [hc]
    · rw [if_neg hc]
      have hc' : c.exist = true := by simpa using hc
      constructor
      · intro e
        match hh : hexBytes c.suffix, e with
        | .ok h, e =>
          obtain ⟨h1, rfl⟩ := (hexBytes_iff _ _).mp hh
          match hr : childLoop l, e with
          | .ok r', e =>
            obtain ⟨h2, rfl⟩ := (ih r').mp hr
            simp only [Out.bind_ok, Out.pure_eq, Out.ok.injEq] at e
            refine ⟨?_, ?_⟩
            · intro x hx hxe
              rcases List.mem_cons.mp hx with rfl | hx
              · exact h1
              · exact h2 x hx hxe
            · rw [← e, List.filter_cons_of_pos hc', List.map_cons]
              simp [entries]
          | .err _, e => cases e
          | .panic, e => cases e
        | .err _, e => cases e
        | .panic, e => cases e
      · rintro ⟨h1, rfl⟩
        rw [(hexBytes_iff _ _).mpr ⟨h1 c (by simp) hc', rfl⟩, (ih _).mpr ⟨fun x hx => h1 x (by simp [hx]), rfl⟩]
        rw [List.filter_cons_of_pos hc', List.map_cons]
        simp [entries, Out.bind_ok, Out.pure_eq]

theorem childLoop_panic : ∀ (l : List Child), childLoop l = .panic ↔ ¬ ∀ c ∈ l, c.exist = true → Nibs c.suffix := by
  intro l
  induction l with
  | nil => simp [childLoop]
  | cons c l ih =>
    rw [childLoop]
    by_cases hc : c.exist = false
    · rw [if_pos hc, ih]
      simp [hc]
    · rw [if_neg hc]
      have hc' : c.exist = true := by simpa using hc
      by_cases h1 : Nibs c.suffix
      · rw [(hexBytes_iff _ _).mpr ⟨h1, rfl⟩]
        by_cases h2 : ∀ c ∈ l, c.exist = true → Nibs c.suffix
        · rw [(childLoop_iff _ _).mpr ⟨h2, rfl⟩]
          constructor
          · intro e; cases e
          · intro e
            exact absurd (fun x hx hxe => by
              rcases List.mem_cons.mp hx with rfl | hx
              · exact h1
              · exact h2 x hx hxe) e
        · rw [ih.mpr h2]
          exact ⟨fun _ e => h2 fun x hx => e x (by simp [hx]), fun _ => rfl⟩
      · rw [(hexBytes_panic _).mpr h1]
        exact ⟨fun _ e => h1 (e c (by simp) hc'), fun _ => rfl⟩

theorem countLoop_eq : ∀ (l : List Child) (n : UInt8), countLoop l n = n + UInt8.ofNat (l.filter (·.exist)).length := by
  intro l
  induction l with
  | nil => intro n; simp [countLoop]
  | cons c l ih =>
    intro n
    rw [countLoop, ih]
    by_cases hc : c.exist = true
    · rw [if_pos hc, List.filter_cons_of_pos hc, List.length_cons, UInt8.add_assoc]
      congr 1
      rw [← UInt8.ofNat_one, ← UInt8.ofNat_add, Nat.add_comm]
    · rw [if_neg hc, List.filter_cons_of_neg hc]

theorem kids_length (ch : Nib → Child) : (kids ch).length ≤ 16 := by
  unfold kids slots
  rw [List.length_map]
  exact Nat.le_trans (List.length_filter_le _ _) (by simp)

theorem slots_all {ch : Nib → Child} {P : Child → Prop} : (∀ c ∈ slots ch, P c) ↔ ∀ i, P (ch i) := by
  simp [slots, List.mem_map]

theorem branchBytes_iff (p : Bytes) (ch : Nib → Child) (b : Bytes) : branchBytes p ch = .ok b ↔ (Node.branch p ch).Valid ∧
    b = [0x00, UInt8.ofNat p.length] ++ p.map digit ++ [UInt8.ofNat (kids ch).length] ++ entries (kids ch) := by
  have hcount : countLoop (slots ch) 0 = UInt8.ofNat (kids ch).length := by
    rw [countLoop_eq, UInt8.zero_add, kids, List.length_map]
  unfold branchBytes Node.Valid
  constructor
  · intro e
    match hh : hexBytes p, e with
    | .ok h, e =>
      obtain ⟨h1, rfl⟩ := (hexBytes_iff _ _).mp hh
      match hr : childLoop (slots ch), e with
      | .ok r', e =>
        obtain ⟨h2, rfl⟩ := (childLoop_iff _ _).mp hr
        simp only [Out.bind_ok, Out.pure_eq, Out.ok.injEq] at e
        exact ⟨⟨h1, slots_all.mp h2⟩, by rw [← e, hcount]; rfl⟩
      | .err _, e => cases e
      | .panic, e => cases e
    | .err _, e => cases e
    | .panic, e => cases e
  · rintro ⟨⟨h1, h2⟩, rfl⟩
    rw [(hexBytes_iff _ _).mpr ⟨h1, rfl⟩, (childLoop_iff _ _).mpr ⟨slots_all.mpr h2, rfl⟩]
    simp only [Out.bind_ok, Out.pure_eq, hcount]
    rfl

theorem marshalTo_iff (p v b : Bytes) : marshalTo p v = .ok b ↔ Nibs p ∧ b = [0xFF, 40] ++ p.map digit ++ v := by
  unfold marshalTo
  constructor
  · intro e
    match hh : hexBytes p, e with
    | .ok h, e =>
      obtain ⟨h1, rfl⟩ := (hexBytes_iff _ _).mp hh
      simp only [Out.bind_ok, Out.pure_eq, Out.ok.injEq] at e
      exact ⟨h1, e.symm⟩
    | .err _, e => cases e
    | .panic, e => cases e
  · rintro ⟨h1, rfl⟩
    rw [(hexBytes_iff _ _).mpr ⟨h1, rfl⟩]
    rfl

theorem bytes_valid (n : Node) : (∃ b, bytes n = .ok b) ↔ n.Valid := by
  cases n with
  | leaf p v => exact ⟨fun ⟨b, h⟩ => ((marshalTo_iff p v b).mp h).1, fun h => ⟨_, (marshalTo_iff p v _).mpr ⟨h, rfl⟩⟩⟩
  | branch p ch => exact ⟨fun ⟨b, h⟩ => ((branchBytes_iff p ch b).mp h).1, fun h => ⟨_, (branchBytes_iff p ch _).mpr ⟨h, rfl⟩⟩⟩

theorem bytes_panic (n : Node) : bytes n = .panic ↔ ¬ n.Valid := by
  constructor
  · intro h hv
    obtain ⟨b, hb⟩ := (bytes_valid n).mpr hv
    rw [hb] at h
    cases h
  · intro hv
    cases n with
    | leaf p v =>
      show marshalTo p v = _
      unfold marshalTo
      rw [(hexBytes_panic _).mpr hv]
      rfl
    | branch p ch =>
      show branchBytes p ch = _
      unfold branchBytes
      by_cases hp : Nibs p
      · rw [(hexBytes_iff _ _).mpr ⟨hp, rfl⟩, (childLoop_panic _).mpr fun h => hv ⟨hp, slots_all.mp h⟩]
        rfl
      · rw [(hexBytes_panic _).mpr hp]
        rfl

theorem entries_inj : ∀ (ks ks' : List (Bytes × Hash32)), ks.length = ks'.length →
    (∀ k ∈ ks, k.1.length < 256 ∧ Nibs k.1) → (∀ k ∈ ks', k.1.length < 256 ∧ Nibs k.1) → entries ks = entries ks' → ks = ks' := by
  intro ks
  induction ks with
  | nil => intro ks' h _ _ _; exact (List.length_eq_zero_iff.mp h.symm).symm
  | cons k ks ih =>
    intro ks' hl h1 h2 he
    cases ks' with
    | nil => simp at hl
    | cons k' ks' =>
      simp only [entries, List.map_cons, List.flatten_cons, List.nil_append, List.cons_append, List.cons.injEq, List.append_assoc] at he
      obtain ⟨e1, e2⟩ := he
      obtain ⟨l1, n1⟩ := h1 k (by simp)
      obtain ⟨l2, n2⟩ := h2 k' (by simp)
      have hlen : k.1.length = k'.1.length := by
        have := congrArg UInt8.toNat e1
        simp only [UInt8.toNat_ofNat'] at this
        omega
      obtain ⟨e3, e4⟩ := List.append_inj e2 (by simpa using hlen)
      obtain ⟨e5, e6⟩ := List.append_inj e4 (by rw [k.2.property, k'.2.property])
      have ek : k = k' := Prod.ext (map_digit_inj n1 n2 e3) (Subtype.ext e5)
      rw [ek, ih ks' (by simpa using hl) (fun x hx => h1 x (by simp [hx])) (fun x hx => h2 x (by simp [hx])) e6]

/-- Digits and a byte below 48 after them. -/
theorem digits_then {a b : Bytes} (ha : Nibs a) (hb : Nibs b) {x y : UInt8} (hx : x.toNat < 48) (hy : y.toNat < 48) {r s : Bytes}
    (h : a.map digit ++ x :: r = b.map digit ++ y :: s) : a = b ∧ x = y ∧ r = s := by
  induction a generalizing b with
  | nil =>
    cases b with
    | nil => simpa using h
    | cons c b =>
      simp only [List.map_nil, List.nil_append, List.map_cons, List.cons_append, List.cons.injEq] at h
      have := digit_ge (hb c (by simp))
      rw [← h.1] at this
      omega
  | cons d a ih =>
    cases b with
    | nil =>
      simp only [List.map_nil, List.nil_append, List.map_cons, List.cons_append, List.cons.injEq] at h
      have := digit_ge (ha d (by simp))
      rw [h.1] at this
      omega
    | cons c b =>
      simp only [List.map_cons, List.cons_append, List.cons.injEq] at h
      obtain ⟨h1, h2⟩ := h
      obtain ⟨rfl, h3⟩ := ih (fun n hn => ha n (by simp [hn])) (fun n hn => hb n (by simp [hn])) h2
      exact ⟨by rw [digit_inj (ha d (by simp)) (hb c (by simp)) h1], h3⟩

/-! ## The property -/

/-- C137. `Hash` panics exactly when something that is hashed as a nibble is none. -/
theorem C137_panics_iff (H : Bytes → Hash32) (n : Node) : hash H n = .panic ↔ ¬ n.Valid := by
  constructor
  · intro h hv
    obtain ⟨b, hb⟩ := (bytes_valid n).mpr hv
    rw [hash, hb] at h
    cases h
  · intro hv
    rw [hash, (bytes_panic n).mpr hv]
    rfl

/-- C137. `PutChild` panics exactly when the suffix does not begin with a nibble; otherwise the child goes to that slot. -/
theorem C137_put_child (ch : Nib → Child) (suffix : Bytes) (h : Hash32) :
    (putChild ch suffix h = .panic ↔ ¬ ∃ (i : Nib) (r : Bytes), suffix = UInt8.ofNat i.val :: r) ∧
    ∀ (i : Nib) (r : Bytes), suffix = UInt8.ofNat i.val :: r → ∃ ch', putChild ch suffix h = .ok ch' ∧
      ch' i = ⟨suffix, h, true⟩ ∧ ∀ j, j ≠ i → ch' j = ch j := by
  have key : ∀ i : Nib, (UInt8.ofNat i.val).toNat = i.val := by decide
  constructor
  · cases suffix with
    | nil => simp [putChild]
    | cons d r =>
      rw [putChild]
      by_cases hd : d.toNat < 16
      · rw [dif_pos hd]
        constructor
        · intro e; cases e
        · intro e
          exact absurd ⟨⟨d.toNat, hd⟩, r, by simp⟩ e
      · rw [dif_neg hd]
        refine ⟨fun _ => ?_, fun _ => rfl⟩
        rintro ⟨i, r', e⟩
        simp only [List.cons.injEq] at e
        have := i.isLt
        rw [e.1, key] at hd
        exact hd this
  · rintro i r rfl
    rw [putChild]
    have hi : (UInt8.ofNat i.val).toNat < 16 := by rw [key]; exact i.isLt
    rw [dif_pos hi]
    refine ⟨_, rfl, ?_, fun j hj => ?_⟩
    · simp [Fin.ext_iff, key]
    · have : j ≠ ⟨(UInt8.ofNat i.val).toNat, hi⟩ := fun e => hj (by rw [e]; exact Fin.ext (key i))
      exact if_neg this

/-- C137. A leaf and a branch are never hashed from the same bytes. -/
theorem C137_kinds (p v q : Bytes) (ch : Nib → Child) (b : Bytes) (h1 : bytes (.leaf p v) = .ok b) (h2 : bytes (.branch q ch) = .ok b) :
    False := by
  obtain ⟨-, rfl⟩ := (marshalTo_iff p v b).mp h1
  obtain ⟨-, h⟩ := (branchBytes_iff q ch _).mp h2
  simp only [List.cons_append, List.nil_append, List.cons.injEq] at h
  exact absurd h.1 (by decide)

/-- C137. Leaves are hashed from the same bytes iff the digits followed by the value are the same. -/
theorem C137_leaves (p p' v v' b b' : Bytes) (h1 : bytes (.leaf p v) = .ok b) (h2 : bytes (.leaf p' v') = .ok b') :
    b = b' ↔ p.map digit ++ v = p'.map digit ++ v' := by
  obtain ⟨-, rfl⟩ := (marshalTo_iff p v b).mp h1
  obtain ⟨-, rfl⟩ := (marshalTo_iff p' v' b').mp h2
  simp

/-- **C137 is violated**: the border between path and value of a leaf is not hashed. Every leaf whose path is not empty has the
hash of another one, whatever the hash function is. -/
theorem C137_leaf_violated (H : Bytes → Hash32) (p v : Bytes) (d : UInt8) :
    Nibs (p ++ [d]) → hash H (.leaf (p ++ [d]) v) = hash H (.leaf p (digit d :: v)) ∧ Node.leaf (p ++ [d]) v ≠ .leaf p (digit d :: v) := by
  intro hn
  refine ⟨?_, fun h => ?_⟩
  · have h1 : bytes (.leaf (p ++ [d]) v) = .ok _ := (marshalTo_iff _ v _).mpr ⟨hn, rfl⟩
    have h2 : bytes (.leaf p (digit d :: v)) = .ok _ := (marshalTo_iff p _ _).mpr ⟨fun n h => hn n (by simp [h]), rfl⟩
    rw [hash, hash, h1, h2]
    simp
  · have := congrArg (fun n => match n with | Node.leaf p _ => p.length | _ => 0) h
    simp at this

/-- C137. Branches are hashed from the same bytes iff the path and the children in their order are the same. This needs that
suffixes are shorter than 256; paths may have any length. -/
theorem C137_branches (p p' : Bytes) (ch ch' : Nib → Child) (b b' : Bytes) (h1 : bytes (.branch p ch) = .ok b)
    (h2 : bytes (.branch p' ch') = .ok b') (hs : ∀ k ∈ kids ch, k.1.length < 256) (hs' : ∀ k ∈ kids ch', k.1.length < 256) :
    b = b' ↔ p = p' ∧ kids ch = kids ch' := by
  obtain ⟨⟨n1, m1⟩, rfl⟩ := (branchBytes_iff p ch b).mp h1
  obtain ⟨⟨n2, m2⟩, rfl⟩ := (branchBytes_iff p' ch' b').mp h2
  have hk : ∀ (c : Nib → Child), (∀ i, (c i).exist = true → Nibs (c i).suffix) → ∀ k ∈ kids c, Nibs k.1 := by
    intro c hc k hm
    simp only [kids, slots, List.mem_map, List.mem_filter, List.mem_finRange, true_and] at hm
    obtain ⟨x, ⟨⟨i, rfl⟩, hx⟩, rfl⟩ := hm
    exact hc i hx
  constructor
  · intro h
    simp only [List.cons_append, List.nil_append, List.cons.injEq, List.append_assoc, true_and] at h
    have c1 := kids_length ch
    have c2 := kids_length ch'
    have t1 : (UInt8.ofNat (kids ch).length).toNat = (kids ch).length := by simp only [UInt8.toNat_ofNat']; omega
    have t2 : (UInt8.ofNat (kids ch').length).toNat = (kids ch').length := by simp only [UInt8.toNat_ofNat']; omega
    obtain ⟨rfl, h3, h4⟩ := digits_then n1 n2 (by omega) (by omega) h.2
    refine ⟨rfl, entries_inj _ _ ?_ (fun k m => ⟨hs k m, hk ch m1 k m⟩) (fun k m => ⟨hs' k m, hk ch' m2 k m⟩) h4⟩
    have := congrArg UInt8.toNat h3
    omega
  · rintro ⟨rfl, h⟩
    rw [h]

/-- One child, in slot `i`. -/
def only (i : Nib) (c : Child) : Nib → Child := fun j => if j = i then c else ⟨[], BArr.zero 32, false⟩

theorem kids_only (i : Nib) (c : Child) (hc : c.exist = true) : kids (only i c) = [(c.suffix, c.hash)] := by
  have key : ∀ (l : List Nib), l.Nodup → i ∈ l → (l.map (only i c)).filter (·.exist) = [c] := by
    intro l
    induction l with
    | nil => intro _ h; cases h
    | cons j l ih =>
      intro hnd hm
      obtain ⟨h1, h2⟩ := List.nodup_cons.mp hnd
      have hrest : i ∉ l → (l.map (only i c)).filter (·.exist) = [] := by
        intro hn
        apply List.filter_eq_nil_iff.mpr
        intro x hx
        obtain ⟨k, hk, rfl⟩ := List.mem_map.mp hx
        have : k ≠ i := fun e => hn (e ▸ hk)
        simp [only, this]
      by_cases hj : j = i
      · subst hj
        have he : only j c j = c := if_pos rfl
        rw [List.map_cons, he, List.filter_cons_of_pos hc, hrest h1]
      · have he : ¬ (only i c j).exist = true := by simp [only, hj]
        rw [List.map_cons, List.filter_cons_of_neg he]
        exact ih h2 ((List.mem_cons.mp hm).resolve_left (Ne.symm hj))
  rw [kids, slots, key _ (List.nodup_finRange 16) (List.mem_finRange i)]
  rfl

/-- **C137 is violated**: the slot of a child is not hashed either. An only child can be in any slot. -/
theorem C137_slot_violated (H : Bytes → Hash32) (p : Bytes) (c : Child) (hc : c.exist = true) (i j : Nib) (hij : i ≠ j)
    (hv : (Node.branch p (only i c)).Valid) : hash H (.branch p (only i c)) = hash H (.branch p (only j c)) ∧
    ¬ (Node.branch p (only i c)).Same (.branch p (only j c)) := by
  have hs : Nibs c.suffix := by simpa [only] using hv.2 i (by simp [only, hc])
  have hv' : (Node.branch p (only j c)).Valid := by
    refine ⟨hv.1, fun k hk => ?_⟩
    by_cases h : k = j
    · simpa [only, h] using hs
    · simp [only, h] at hk
  refine ⟨?_, fun h => ?_⟩
  · have h1 : bytes (.branch p (only i c)) = .ok _ := (branchBytes_iff p _ _).mpr ⟨hv, rfl⟩
    have h2 : bytes (.branch p (only j c)) = .ok _ := (branchBytes_iff p _ _).mpr ⟨hv', rfl⟩
    rw [hash, hash, h1, h2, kids_only i c hc, kids_only j c hc]
  · have := (h.2 i).1
    simp [only, hij, hc] at this

/-- Children in the slots of their suffixes are determined by the list. -/
theorem kids_same {ch ch' : Nib → Child} (h1 : ∀ i, (ch i).exist = true → ∃ r, (ch i).suffix = UInt8.ofNat i.val :: r)
    (h2 : ∀ i, (ch' i).exist = true → ∃ r, (ch' i).suffix = UInt8.ofNat i.val :: r) (h : kids ch = kids ch') (i : Nib) :
    (ch i).exist = (ch' i).exist ∧ ((ch i).exist = true → (ch i).suffix = (ch' i).suffix ∧ (ch i).hash = (ch' i).hash) := by
  have hm : ∀ (c : Nib → Child) (k : Bytes × Hash32), k ∈ kids c ↔ ∃ i, (c i).exist = true ∧ k = ((c i).suffix, (c i).hash) := by
    intro c k
    simp only [kids, slots, List.mem_map, List.mem_filter, List.mem_finRange, true_and]
    constructor
    · rintro ⟨x, ⟨⟨i, rfl⟩, hx⟩, rfl⟩
      exact ⟨i, hx, rfl⟩
    · rintro ⟨i, hx, rfl⟩
      exact ⟨_, ⟨⟨i, rfl⟩, hx⟩, rfl⟩
  have inj : ∀ i j : Nib, UInt8.ofNat i.val = UInt8.ofNat j.val → i = j := by decide +kernel
  have half : ∀ (c c' : Nib → Child), (∀ i, (c i).exist = true → ∃ r, (c i).suffix = UInt8.ofNat i.val :: r) →
      (∀ i, (c' i).exist = true → ∃ r, (c' i).suffix = UInt8.ofNat i.val :: r) → kids c = kids c' → (c i).exist = true →
      (c' i).exist = true ∧ (c i).suffix = (c' i).suffix ∧ (c i).hash = (c' i).hash := by
    intro c c' a1 a2 e he
    have := (hm c _).mpr ⟨i, he, rfl⟩
    rw [e] at this
    obtain ⟨j, hj, ej⟩ := (hm c' _).mp this
    simp only [Prod.mk.injEq] at ej
    obtain ⟨r, hr⟩ := a1 i he
    obtain ⟨r', hr'⟩ := a2 j hj
    have : i = j := by
      apply inj
      have e3 := ej.1
      rw [hr, hr'] at e3
      exact (List.cons.inj e3).1
    subst this
    exact ⟨hj, ej.1, ej.2⟩
  refine ⟨?_, fun he => (half ch ch' h1 h2 h he).2⟩
  cases he : (ch i).exist with
  | true => exact (half ch ch' h1 h2 h he).1.symm
  | false =>
    cases he' : (ch' i).exist with
    | false => rfl
    | true => rw [(half ch' ch h2 h1 h.symm he').1] at he; cases he

/-- **C137** for nodes as the tree builds them: two with the same hash are the same, or the hash function collides on the two
strings that were hashed. -/
theorem C137_binding_partial (H : Bytes → Hash32) (n n' : Node) (hp : n.Proper) (hp' : n'.Proper) (h : Hash32)
    (h1 : hash H n = .ok h) (h2 : hash H n' = .ok h) :
    n.Same n' ∨ ∃ b b', bytes n = .ok b ∧ bytes n' = .ok b' ∧ b ≠ b' ∧ H b = H b' := by
  have hb : ∀ m : Node, hash H m = .ok h → ∃ b, bytes m = .ok b ∧ H b = h := by
    intro m hm
    unfold hash at hm
    match hbm : bytes m, hm with
    | .ok b, hm =>
      simp only [Out.bind_ok, Out.pure_eq, Out.ok.injEq] at hm
      exact ⟨b, rfl, hm⟩
    | .err _, hm => cases hm
    | .panic, hm => cases hm
  obtain ⟨b, e1, q1⟩ := hb n h1
  obtain ⟨b', e2, q2⟩ := hb n' h2
  by_cases hbb : b = b'
  · subst hbb
    left
    cases n with
    | leaf p v =>
      cases n' with
      | leaf p' v' =>
        have hh := (C137_leaves p p' v v' b b e1 e2).mp rfl
        obtain ⟨a1, a2⟩ := List.append_inj hh (by simp only [List.length_map]; exact hp.trans hp'.symm)
        exact ⟨map_digit_inj ((marshalTo_iff _ _ _).mp e1).1 ((marshalTo_iff _ _ _).mp e2).1 a1, a2⟩
      | branch p' ch' => exact (C137_kinds p v p' ch' b e1 e2).elim
    | branch p ch =>
      cases n' with
      | leaf p' v' => exact (C137_kinds p' v' p ch b e2 e1).elim
      | branch p' ch' =>
        have hs : ∀ c : Nib → Child, (∀ i, (c i).exist = true → (∃ r, (c i).suffix = UInt8.ofNat i.val :: r) ∧ (c i).suffix.length < 256) →
            ∀ k ∈ kids c, k.1.length < 256 := by
          intro c hc k hm
          simp only [kids, slots, List.mem_map, List.mem_filter, List.mem_finRange, true_and] at hm
          obtain ⟨x, ⟨⟨i, rfl⟩, hx⟩, rfl⟩ := hm
          exact (hc i hx).2
        obtain ⟨hpp, hk⟩ := (C137_branches p p' ch ch' b b e1 e2 (hs ch hp) (hs ch' hp')).mp rfl
        exact ⟨hpp, fun i => kids_same (fun i hi => (hp i hi).1) (fun i hi => (hp' i hi).1) hk i⟩
  · exact .inr ⟨b, b', e1, e2, hbb, q1.trans q2.symm⟩

/-! ## The tree's own nodes -/

/-- The bytes of a path. -/
def raw (p : Nibbles) : Bytes := p.map fun d => UInt8.ofNat d.val

/-- A node of the tree model. -/
def ofObj : NodeObj → Node
  | .leaf p v => .leaf (raw p) v
  | .branch p ch => .branch (raw p) fun i => ⟨raw (ch i).suffix, (ch i).hash, (ch i).exist⟩

theorem raw_nibs (p : Nibbles) : Nibs (raw p) := by
  have key : ∀ i : Nib, (UInt8.ofNat i.val).toNat < 16 := by decide
  intro n hn
  obtain ⟨d, -, rfl⟩ := List.mem_map.mp hn
  exact key d

theorem raw_digits (p : Nibbles) : (raw p).map digit = hexOf p := by
  have key : ∀ d : Nib, digit (UInt8.ofNat d.val) = hexTable.getD d.val 0 := by decide +kernel
  rw [raw, hexOf, List.map_map]
  exact List.map_congr_left fun d _ => key d

/-- C137. On the nodes of the tree this is the hash of the tree model (C01-C07, C102 etc. speak of it). -/
theorem C137_tree (H : Bytes → Hash32) (o : NodeObj) : hash H (ofObj o) = .ok (objHash H o) := by
  cases o with
  | leaf p v =>
    have h1 : bytes (ofObj (.leaf p v)) = .ok _ := (marshalTo_iff _ v _).mpr ⟨raw_nibs p, rfl⟩
    rw [hash, h1, raw_digits]
    rfl
  | branch p ch =>
    have h1 : bytes (ofObj (.branch p ch)) = .ok _ := (branchBytes_iff _ _ _).mpr ⟨⟨raw_nibs p, fun i _ => raw_nibs _⟩, rfl⟩
    rw [hash, h1, raw_digits]
    have hf : ∀ l : List Nib, (l.map fun i => (⟨raw (ch i).suffix, (ch i).hash, (ch i).exist⟩ : Child)).filter (·.exist) =
        ((l.map ch).filter (·.exist)).map fun c => ⟨raw c.suffix, c.hash, c.exist⟩ := by
      intro l
      induction l with
      | nil => rfl
      | cons i l ih =>
        simp only [List.map_cons, List.filter_cons, ih]
        split <;> rfl
    have hk : kids (fun i => (⟨raw (ch i).suffix, (ch i).hash, (ch i).exist⟩ : Child)) =
        (existing ch).map fun c => (raw c.suffix, c.hash) := by
      rw [kids, slots, hf, List.map_map]
      rfl
    have he : entries ((existing ch).map fun c => (raw c.suffix, c.hash)) =
        ((existing ch).map fun c => [UInt8.ofNat c.suffix.length] ++ hexOf c.suffix ++ c.hash.val).flatten := by
      rw [entries, List.map_map]
      congr 1
      refine List.map_congr_left fun c _ => ?_
      simp only [Function.comp, raw_digits]
      rw [raw, List.length_map]
    rw [hk, he, List.length_map, Out.bind_ok, Out.pure_eq, objHash, Tree.branchBytes]
    have hl : (raw p).length = p.length := by rw [raw, List.length_map]
    rw [hl]

/-! ## Such nodes -/

/-- A branch below `[4, 15]` with two leaves. -/
def sample : Node := .branch [4, 15] fun i =>
  if i = 3 then ⟨[3, 1], BArr.zero 32, true⟩ else if i = 9 then ⟨[9], BArr.zero 32, true⟩ else ⟨[], BArr.zero 32, false⟩

theorem sample_valid : sample.Valid := by
  refine ⟨by decide, ?_⟩
  decide

example : sample.Valid ∧ sample.Proper := by
  refine ⟨sample_valid, fun i hi => ?_⟩
  by_cases h3 : i = 3
  · subst h3; exact ⟨⟨[1], rfl⟩, by decide⟩
  · by_cases h9 : i = 9
    · subst h9; exact ⟨⟨[], rfl⟩, by decide⟩
    · simp [sample, h3, h9] at hi

/-- A node that cannot be hashed: `HexBytes` has no digit for 16. -/
example (H : Bytes → Hash32) : hash H (.leaf [16] []) = .panic := by
  rw [C137_panics_iff]
  intro h
  exact absurd (h 16 (by simp)) (by decide)

/-- The two leaves of `C137_leaf_violated`. -/
example : Nibs ([] ++ [1]) := by decide

/-- The branches of `C137_slot_violated`. -/
example : (Node.branch [] (only 2 ⟨[2], BArr.zero 32, true⟩)).Valid :=
  ⟨by decide, by decide⟩

end Nimiq.Tree.Hand
