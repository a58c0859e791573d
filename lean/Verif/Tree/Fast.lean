import Verif.Blake.Fast
import Verif.Tree.Canon
/-!
# The Merkle-Patricia root of an explicit list of entries, in a form the kernel evaluates quickly
-/
namespace Nimiq.Tree.Fast
open Blake

/-- The nibbles that are left of a path and the bytes of the value. -/
abbrev Entry := List Nat × List Nat

def hexDigit (n : Nat) : Nat := cond (Nat.ble n (nat_lit 9)) (Nat.add (nat_lit 48) n) (Nat.add (nat_lit 87) n)

def leafMsg (path : List Nat) (e : Entry) : List Nat :=
  nat_lit 255 :: nat_lit 40 :: (path.map hexDigit ++ (e.1.map hexDigit ++ e.2))

def kidsMsg : List Entry → List Nat
  | [] => []
  | k :: ks => Nat.mod k.1.length (nat_lit 256) :: (k.1.map hexDigit ++ (k.2 ++ kidsMsg ks))

def branchMsg (path : List Nat) (ks : List Entry) : List Nat :=
  nat_lit 0 :: Nat.mod path.length (nat_lit 256) :: (path.map hexDigit ++ (Nat.mod ks.length (nat_lit 256) :: kidsMsg ks))

/-- The entries that go on with the nibble `i`, without it. -/
def bucket (i : Nat) : List Entry → List Entry
  | [] => []
  | e :: es => match e.1 with
    | [] => bucket i es
    | n :: r => cond (Nat.beq n i) ((r, e.2) :: bucket i es) (bucket i es)

def kidsOf (sub : Nat → Option Entry) : List Nat → List Entry
  | [] => []
  | i :: l => match sub i with
    | none => kidsOf sub l
    | some r => (i :: r.1, r.2) :: kidsOf sub l

def finishKids (path : List Nat) : List Entry → Option Entry
  | [] => none
  | [k] => some k
  | ks => some ([], fastSum (branchMsg path ks))

def nibbleList : List Nat := [0, 1, 2, 3, 4, 5, 6, 7, 8, 9, 10, 11, 12, 13, 14, 15]

/-- The rest of the path and the hash of the topmost node. -/
def build : Nat → List Nat → List Entry → Option Entry
  | 0, path, es => match es with
    | [e] => some (e.1, fastSum (leafMsg path e))
    | _ => none
  | d + 1, path, es => match es with
    | [] => none
    | [e] => some (e.1, fastSum (leafMsg path e))
    | e :: e' :: es => finishKids path (kidsOf (fun i => build d (path ++ [i]) (bucket i (e :: e' :: es))) nibbleList)

/-- The root branch. -/
def rootMsg (es : List Entry) : List Nat := branchMsg [] (kidsOf (fun i => build 39 [i] (bucket i es)) nibbleList)

/-! ## Correctness -/

abbrev F (n : Nat) : Fin 16 := Fin.ofNat 16 n

def toHash (l : List Nat) : Hash32 := if h : l.length = 32 then ⟨l.map UInt8.ofNat, by simp [h]⟩ else BArr.zero 32

theorem sum256_length (m : List Nat) : (sum256 m).length = 32 := by simp [sum256]

theorem hash_eq (b : Bytes) : Blake.hash b = toHash (fastSum (b.map (·.toNat))) := by
  rw [fastSum_eq, toHash, dif_pos (sum256_length _)]; rfl

theorem toHash_bytes (m : List Nat) : (toHash (fastSum m)).val.map (·.toNat) = fastSum m := by
  rw [fastSum_eq, toHash, dif_pos (sum256_length _)]
  simp only [List.map_map]
  conv => rhs; rw [← List.map_id (sum256 m)]
  apply List.map_congr_left
  intro x hx
  simp only [sum256, List.mem_map] at hx
  obtain ⟨i, _, rfl⟩ := hx
  simp

theorem digit_toNat (n : Nat) (h : n < 16) : (Spec.digit (F n)).toNat = hexDigit n := by
  have key : ∀ n : Fin 16, (Spec.digit (F n.val)).toNat = hexDigit n.val := by decide
  exact key ⟨n, h⟩

theorem digits_map (l : List Nat) (h : ∀ n ∈ l, n < 16) : ((l.map F).map Spec.digit).map (·.toNat) = l.map hexDigit := by
  simp only [List.map_map]
  apply List.map_congr_left
  intro n hn
  exact digit_toNat n (h n hn)

def conv (r : Entry) : List (Fin 16) × Hash32 := (r.1.map F, toHash r.2)

/-- What holds for the results. -/
def Fine (r : Entry) : Prop := (∀ n ∈ r.1, n < 16) ∧ ∃ m, r.2 = fastSum m

theorem leaf_eq (path : List Nat) (e : Entry) (v : Bytes) (hp : ∀ n ∈ path, n < 16) (he : ∀ n ∈ e.1, n < 16)
    (hv : v.map (·.toNat) = e.2) :
    Blake.hash (Spec.leafEnc (path.map F ++ e.1.map F) v) = toHash (fastSum (leafMsg path e)) := by
  rw [hash_eq]
  congr 2
  simp only [Spec.leafEnc, leafMsg, List.map_cons, List.map_append, digits_map _ hp, digits_map _ he, hv, List.append_assoc]
  rfl

theorem kids_bytes (ks : List Entry) (h : ∀ k ∈ ks, Fine k) :
    ((ks.map conv).flatMap fun k => UInt8.ofNat k.1.length :: (k.1.map Spec.digit ++ k.2.val)).map (·.toNat) = kidsMsg ks := by
  induction ks with
  | nil => rfl
  | cons k ks ih =>
    obtain ⟨h1, m, h2⟩ := h k (by simp)
    have := ih fun k hk => h k (by simp [hk])
    simp only [List.map_cons, List.flatMap_cons, List.map_append, this, kidsMsg, conv, h2, toHash_bytes, digits_map _ h1,
      List.length_map, List.cons_append, List.append_assoc]
    congr 1

theorem branch_eq (path : List Nat) (ks : List Entry) (hp : ∀ n ∈ path, n < 16) (h : ∀ k ∈ ks, Fine k) :
    Blake.hash (Spec.branchEnc (path.map F) (ks.map conv)) = toHash (fastSum (branchMsg path ks)) := by
  rw [hash_eq]
  congr 2
  simp only [Spec.branchEnc, branchMsg, List.map_cons, List.map_append, digits_map _ hp, kids_bytes _ h, List.length_map]
  rfl

theorem mem_bucket (i : Nat) (es : List Entry) (r v : List Nat) : (r, v) ∈ bucket i es ↔ (i :: r, v) ∈ es := by
  induction es with
  | nil => simp [bucket]
  | cons e es ih =>
    obtain ⟨p, w⟩ := e
    cases p with
    | nil => simp [bucket, ih]
    | cons n p =>
      simp only [bucket]
      cases hb : Nat.beq n i with
      | true =>
        have := Nat.eq_of_beq_eq_true hb
        subst this
        simp [ih]
      | false =>
        have : n ≠ i := fun h => by simp [h] at hb
        simp [ih, Ne.symm this]

theorem bucket_nodup (i : Nat) (es : List Entry) (h : (es.map (·.1)).Nodup) : ((bucket i es).map (·.1)).Nodup := by
  induction es with
  | nil => simp [bucket]
  | cons e es ih =>
    obtain ⟨p, w⟩ := e
    simp only [List.map_cons, List.nodup_cons] at h
    cases p with
    | nil => exact ih h.2
    | cons n p =>
      simp only [bucket]
      cases hb : Nat.beq n i with
      | true =>
        have := Nat.eq_of_beq_eq_true hb
        subst this
        simp only [cond_true, List.map_cons, List.nodup_cons]
        refine ⟨fun hm => h.1 ?_, ih h.2⟩
        obtain ⟨⟨r, v⟩, hr, rfl⟩ := List.mem_map.mp hm
        exact List.mem_map.mpr ⟨_, (mem_bucket _ _ _ _).mp hr, rfl⟩
      | false => exact ih h.2

/-- `es` are the values of `L` below `path`. -/
structure Covers (L : List (Fin 16) → Bytes) (depth : Nat) (path : List Nat) (es : List Entry) : Prop where
  len : ∀ e ∈ es, e.1.length = depth
  small : ∀ e ∈ es, ∀ n ∈ e.1, n < 16
  nodup : (es.map (·.1)).Nodup
  val : ∀ e ∈ es, (L (path.map F ++ e.1.map F)).map (·.toNat) = e.2 ∧ e.2 ≠ []
  none : ∀ q : List (Fin 16), q.length = depth → (∀ e ∈ es, e.1.map F ≠ q) → L (path.map F ++ q) = []

theorem F_val (i : Fin 16) : F i.val = i := by ext; simp [F]

theorem map_F_val (q : List (Fin 16)) : (q.map (·.val)).map F = q := by
  rw [List.map_map]
  conv => rhs; rw [← List.map_id q]
  apply List.map_congr_left
  intro i _
  exact F_val i

theorem F_inj {m n : Nat} (hm : m < 16) (hn : n < 16) (h : F m = F n) : m = n := by
  have := congrArg Fin.val h
  simp only [F, Fin.ofNat] at this
  omega

theorem Covers.bucket {L : List (Fin 16) → Bytes} {d : Nat} {path : List Nat} {es : List Entry} (h : Covers L (d + 1) path es)
    (i : Nat) (hi : i < 16) : Covers L d (path ++ [i]) (bucket i es) where
  len := by
    rintro ⟨r, v⟩ he
    have := h.len _ ((mem_bucket _ _ _ _).mp he)
    simpa using this
  small := by
    rintro ⟨r, v⟩ he n hn
    exact h.small _ ((mem_bucket _ _ _ _).mp he) n (by simp only [List.mem_cons]; exact .inr hn)
  nodup := bucket_nodup i es h.nodup
  val := by
    rintro ⟨r, v⟩ he
    have := h.val _ ((mem_bucket _ _ _ _).mp he)
    simpa using this
  none := by
    intro q hq hn
    have := h.none (F i :: q) (by simp [hq]) (by
      rintro ⟨p, v⟩ he hp
      cases p with
      | nil => simp at hp
      | cons n p =>
        simp only [List.map_cons, List.cons.injEq] at hp
        have := F_inj (h.small _ he n (by simp)) hi hp.1
        subst this
        exact hn _ ((mem_bucket _ _ _ _).mpr he) hp.2)
    simpa using this

theorem kidsOf_eq (sub : Nat → Option Entry) (l : List Nat) :
    kidsOf sub l = l.filterMap fun i => (sub i).map fun r => (i :: r.1, r.2) := by
  induction l with
  | nil => rfl
  | cons i l ih =>
    simp only [kidsOf, ih, List.filterMap_cons]
    cases sub i <;> rfl

theorem kids_conv (sub : Nat → Option Entry) :
    Spec.kids (fun i => (sub i.val).map conv) = (kidsOf sub nibbleList).map conv := by
  rw [kidsOf_eq, List.map_filterMap]
  have e : nibbleList = (List.finRange 16).map (·.val) := by decide
  rw [e, List.filterMap_map]
  unfold Spec.kids
  congr 1
  funext i
  simp only [Function.comp]
  cases sub i.val with
  | none => rfl
  | some r => simp [conv, F_val]

theorem kidsOf_none (sub : Nat → Option Entry) (l : List Nat) (h : ∀ i ∈ l, sub i = none) : kidsOf sub l = [] := by
  rw [kidsOf_eq, List.filterMap_eq_nil_iff]
  intro i hi
  simp [h i hi]

theorem kidsOf_one (sub : Nat → Option Entry) (l : List Nat) (hl : l.Nodup) (n : Nat) (hn : n ∈ l) (r : Entry)
    (h1 : sub n = some r) (h : ∀ i ∈ l, i ≠ n → sub i = none) : kidsOf sub l = [(n :: r.1, r.2)] := by
  induction l with
  | nil => simp at hn
  | cons i l ih =>
    rw [List.nodup_cons] at hl
    by_cases hi : i = n
    · subst hi
      simp only [kidsOf, h1]
      rw [kidsOf_none]
      intro j hj
      exact h j (by simp [hj]) fun he => hl.1 (he ▸ hj)
    · have h2 := h i (by simp) hi
      simp only [kidsOf, h2]
      exact ih hl.2 (by simpa [Ne.symm hi] using hn) fun j hj => h j (by simp [hj])

theorem build_nil (d : Nat) (path : List Nat) : build d path [] = none := by cases d <;> rfl
theorem build_one (d : Nat) (path : List Nat) (e : Entry) : build d path [e] = some (e.1, fastSum (leafMsg path e)) := by
  cases d <;> rfl

theorem mem_nibbleList {i : Nat} : i ∈ nibbleList ↔ i < 16 := by
  constructor
  · intro h
    have : ∀ i ∈ nibbleList, i < 16 := by decide
    exact this i h
  · intro h
    have : ∀ i : Fin 16, i.val ∈ nibbleList := by decide
    exact this ⟨i, h⟩

/-- For any list of entries, `build` does what it does for two or more. -/
theorem build_step {L : List (Fin 16) → Bytes} {d : Nat} {path : List Nat} {es : List Entry} (h : Covers L (d + 1) path es) :
    build (d + 1) path es = finishKids path (kidsOf (fun i => build d (path ++ [i]) (bucket i es)) nibbleList) := by
  match es, h with
  | [], h =>
    rw [kidsOf_none _ _ fun i _ => by simp only [Fast.bucket, build_nil]]
    rfl
  | [(p, v)], h =>
    have hl := h.len (p, v) (by simp)
    cases p with
    | nil => simp at hl
    | cons n r =>
      have hn : n < 16 := h.small _ (List.mem_singleton.mpr rfl) n (by simp)
      rw [kidsOf_one _ _ (by decide) n (mem_nibbleList.mpr hn) (r, fastSum (leafMsg (path ++ [n]) (r, v)))]
      · rw [build_one, finishKids]
        simp [leafMsg]
      · have : Nat.beq n n = true := Nat.beq_refl n
        simp only [Fast.bucket, this, cond_true, build_one]
      · intro i _ hi
        have : Nat.beq n i = false := by
          cases hb : Nat.beq n i with
          | false => rfl
          | true => exact absurd (Nat.eq_of_beq_eq_true hb).symm hi
        simp only [Fast.bucket, this, cond_false, build_nil]
  | e :: e' :: es, h => rfl

theorem build_eq {L : List (Fin 16) → Bytes} (d : Nat) {path : List Nat} {es : List Entry} (h : Covers L d path es)
    (hp : ∀ n ∈ path, n < 16) :
    Spec.top Blake.hash L d (path.map F) = (build d path es).map conv ∧ ∀ r, build d path es = some r → Fine r := by
  induction d generalizing path es with
  | zero =>
    have hnil : ∀ e ∈ es, e.1 = [] := fun e he => List.length_eq_zero_iff.mp (h.len e he)
    match es, h, hnil with
    | [], h, _ =>
      have := h.none [] rfl (by simp)
      simp only [List.append_nil] at this
      simp [Spec.top, this, build]
    | [e], h, hnil =>
      have hv := h.val e (by simp)
      have he := hnil e (by simp)
      have h0 := h.small e (by simp)
      have hl := leaf_eq path e _ hp h0 hv.1
      rw [he] at hl hv
      simp only [List.map_nil, List.append_nil] at hl hv
      have hne : L (path.map F) ≠ [] := fun hx => hv.2 (by rw [← hv.1, hx]; rfl)
      refine ⟨?_, ?_⟩
      · rw [Spec.top, if_neg hne, build, hl]
        simp [conv, he]
      · intro r hr
        rw [build] at hr
        cases hr
        exact ⟨by simp [he], _, rfl⟩
    | e :: e' :: es, h, hnil =>
      have h1 := h.nodup
      simp [hnil e (by simp), hnil e' (by simp)] at h1
  | succ d ih =>
    have hsub : ∀ i, i < 16 → Spec.top Blake.hash L d (path.map F ++ [F i]) = (build d (path ++ [i]) (bucket i es)).map conv ∧
        ∀ r, build d (path ++ [i]) (bucket i es) = some r → Fine r := by
      intro i hi
      have := ih (h.bucket i hi) (by
        intro n hn
        rcases List.mem_append.mp hn with hn | hn
        · exact hp n hn
        · rw [List.mem_singleton.mp hn]; exact hi)
      simpa using this
    rw [build_step h]
    generalize hK : kidsOf (fun i => build d (path ++ [i]) (bucket i es)) nibbleList = K
    have hfine : ∀ k ∈ K, Fine k := by
      intro k hk
      rw [← hK, kidsOf_eq, List.mem_filterMap] at hk
      obtain ⟨i, hi, hk⟩ := hk
      cases hb : build d (path ++ [i]) (bucket i es) with
      | none => rw [hb] at hk; cases hk
      | some r =>
        rw [hb] at hk
        cases hk
        have hi' := mem_nibbleList.mp hi
        obtain ⟨f1, f2⟩ := (hsub i hi').2 r hb
        refine ⟨?_, f2⟩
        intro n hn
        rcases List.mem_cons.mp hn with rfl | hn
        · exact hi'
        · exact f1 n hn
    have hkids : Spec.kids (fun i => Spec.top Blake.hash L d (path.map F ++ [i])) = K.map conv := by
      rw [← hK, ← kids_conv]
      congr 1
      funext i
      have := (hsub i.val i.isLt).1
      rwa [F_val] at this
    rw [Spec.top, hkids]
    match K, hfine with
    | [], _ => exact ⟨rfl, fun r hr => by cases hr⟩
    | [k], hfine => exact ⟨rfl, fun r hr => by cases hr; exact hfine k (by simp)⟩
    | k :: k' :: ks, hfine =>
      have hb := branch_eq path _ hp hfine
      refine ⟨?_, fun r hr => by cases hr; exact ⟨by simp, _, rfl⟩⟩
      simp only [List.map_cons] at hb ⊢
      rw [hb]
      rfl

/-- The root of a mapping with these entries. -/
theorem root_eq {M : Spec.Mapping} {es : List Entry} (h : Covers (Spec.leafAt M) 40 [] es) :
    Spec.rootHash Blake.hash M = toHash (fastSum (rootMsg es)) := by
  have hsub : ∀ i, i < 16 → Spec.top Blake.hash (Spec.leafAt M) 39 [F i] = (build 39 [i] (bucket i es)).map conv ∧
      ∀ r, build 39 [i] (bucket i es) = some r → Fine r := by
    intro i hi
    have := build_eq 39 (h.bucket i hi) (by
      intro n hn
      simp at hn
      omega)
    simpa using this
  have hkids : Spec.kids (fun i => Spec.top Blake.hash (Spec.leafAt M) 39 [i]) =
      (kidsOf (fun i => build 39 [i] (bucket i es)) nibbleList).map conv := by
    rw [← kids_conv]
    congr 1
    funext i
    have := (hsub i.val i.isLt).1
    rwa [F_val] at this
  unfold Spec.rootHash rootMsg
  rw [hkids]
  refine branch_eq [] _ (by simp) ?_
  intro k hk
  rw [kidsOf_eq, List.mem_filterMap] at hk
  obtain ⟨i, hi, hk⟩ := hk
  cases hb : build 39 [i] (bucket i es) with
  | none => rw [hb] at hk; cases hk
  | some r =>
    rw [hb] at hk
    cases hk
    have hi' := mem_nibbleList.mp hi
    obtain ⟨f1, f2⟩ := (hsub i hi').2 r hb
    refine ⟨?_, f2⟩
    intro n hn
    rcases List.mem_cons.mp hn with rfl | hn
    · exact hi'
    · exact f1 n hn

end Nimiq.Tree.Fast
