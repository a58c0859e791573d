import Verif.Genesis.Model
import Verif.Genesis.Spec
import Verif.Wire.Strict
import Verif.Beserial.Defined
/-!
# C78, C79: genesis profiles; decoded blocks have no nil transactions
-/
namespace Nimiq.Genesis
open Beserial Wire Accounts Spec

/-! ## Decoded blocks -/

theorem wrapTx_spec_isSome {o : Option Tx} (h : (wrapTx.spec o).isSome) : ∃ tx, o = some tx := by
  cases o with
  | none => simp [wrapTx] at h
  | some tx => exact ⟨tx, rfl⟩

theorem wrapAccount_spec_isSome {o : Option Account} (h : (wrapAccount.spec o).isSome) : ∃ a, o = some a := by
  cases o with
  | none => simp [wrapAccount] at h
  | some a => exact ⟨a, rfl⟩

theorem mapM_id_some {α : Type} : ∀ {l : List (Option α)}, (∀ o ∈ l, ∃ x, o = some x) → ∃ r, l.mapM id = some r := by
  intro l
  induction l with
  | nil => intro _; exact ⟨[], rfl⟩
  | cons o l ih =>
    intro h
    obtain ⟨x, rfl⟩ := h o (by simp)
    obtain ⟨r, hr⟩ := ih fun o ho => h o (by simp [ho])
    exact ⟨x :: r, by simp [List.mapM_cons, hr]⟩

/-- The transactions of a body that can be encoded are not nil. -/
theorem body_txs_some {b : bodyTy.Val} {ts : Tags} {bs : Bytes} (h : enc bodyTy ts b = some bs) :
    ∃ body, Body.ofVal b = some body := by
  obtain ⟨m, x, txs, pr, u⟩ := b
  simp only [bodyTy, enc, encFields, fieldTags_none, fieldTags_u8, fieldTags_u16, Option.bind_eq_bind, Option.pure_def,
    Option.bind_some] at h
  have h1 : (all (fun x => wrapTx.spec x) txs).isSome := by
    cases hall : all (fun x => wrapTx.spec x) txs with
    | some _ => rfl
    | none => simp [hall] at h
  rw [all_isSome] at h1
  obtain ⟨r, hr⟩ := mapM_id_some (l := txs) fun o ho => wrapTx_spec_isSome (h1 o ho)
  exact ⟨⟨m, r, pr.map fun p => (p.1, p.2.1)⟩, by simp [Body.ofVal, hr]⟩

/-- A decoded block has no nil transaction: `Block.ofVal` is defined on it. -/
theorem decoded_block {prev v : blockTy.Val} {d r : Bytes} (h : Unmarshal blockTy prev d = .ok v r) :
    ∃ b, Block.ofVal v = some b := by
  obtain ⟨prevH, prevI, prevB, u⟩ := prev
  have hgb : Good (.ptr bodyTy) := by simp only [Good]; exact ⟨body_good, rfl⟩
  simp only [Unmarshal, blockTy] at h
  rw [decode] at h
  simp only [decodeFields, fieldTags_none, fieldTags_optional] at h
  cases h1 : decode noLimit headerTy prevH {} d with
  | err e x => rw [h1] at h; cases h
  | panic => rw [h1] at h; cases h
  | ok w d1 =>
    rw [h1] at h
    simp only at h
    rw [decode] at h
    cases h2 : runCustom interlink.dec prevI d1 with
    | err e x => rw [h2] at h; cases h
    | panic => rw [h2] at h; cases h
    | ok il d2 =>
      rw [h2] at h
      simp only at h
      cases h3 : decode noLimit (.ptr bodyTy) prevB { optional := true } d2 with
      | err e x => rw [h3] at h; cases h
      | panic => rw [h3] at h; cases h
      | ok b d3 =>
        rw [h3] at h
        simp only [Res.map] at h
        have hv := (Res.ok.inj h).1
        subst hv
        obtain ⟨bs, hbs, _⟩ := decode_canon noLimit _ _ _ _ _ _ hgb h3
        cases b with
        | none => exact ⟨_, rfl⟩
        | some b =>
          simp only [enc] at hbs
          cases he : enc bodyTy { optional := true } b with
          | none => simp [he] at hbs
          | some bs' =>
            obtain ⟨body, hbody⟩ := body_txs_some he
            exact ⟨_, by simp only [Block.ofVal, hbody]; rfl⟩

theorem decoded_full {prev v : blockTy.Val} {d : Bytes} (h : UnmarshalFull blockTy prev d = .ok v) :
    ∃ b, Block.ofVal v = some b := by
  obtain ⟨r, hr, _⟩ := (C37_full_iff blockTy prev v d).mp h
  exact decoded_block hr

/-! ## The account file -/

theorem accountList_good : Good accountListTy := by
  have : 1 ≤ minSize accountTy {} := by
    simp only [accountTy, minSize, minFields, fieldTags_none]; omega
  simp only [accountListTy, Good, GoodFields, this, and_true]
  simp [accountTy, Good, GoodFields, wrapAccount_lawful]

def ofEntry (e : Addr × Option Account) : accountTy.Val := (e.1, e.2, ())

theorem ofEntry_toEntry (e : accountTy.Val) : ofEntry (toEntry e) = e := rfl
theorem toEntry_ofEntry (e : Addr × Option Account) : toEntry (ofEntry e) = e := rfl

theorem account_enc (e : Addr × Option Account) : enc accountTy {} (ofEntry e) = (wrapAccount.spec e.2).map (e.1.val ++ ·) := by
  show enc accountTy {} ((e.1, e.2, ()) : accountTy.Val) = _
  cases h : wrapAccount.spec e.2 <;> simp [accountTy, enc, encFields, h]

theorem accounts_all : ∀ (l : List (Addr × Option Account)) (bs : Bytes),
    all (fun e => enc accountTy {} (ofEntry e)) l = some bs ↔
    ∃ l' : List (Addr × Account), l = l'.map (fun e => (e.1, some e.2)) ∧
      bs = (l'.map fun e => e.1.val ++ accountLayout e.2).flatten := by
  intro l
  induction l with
  | nil =>
    intro bs
    simp only [all, Option.some.injEq]
    constructor
    · rintro rfl; exact ⟨[], rfl, rfl⟩
    · rintro ⟨l', h, rfl⟩
      cases l' with
      | nil => rfl
      | cons _ _ => cases h
  | cons e l ih =>
    intro bs
    obtain ⟨a, w⟩ := e
    simp only [all, Option.bind_eq_bind, Option.pure_def, account_enc]
    simp only [account_enc] at ih
    constructor
    · intro h
      cases w with
      | none => simp [wrapAccount] at h
      | some acc =>
        rw [wrapAccount_spec_some] at h
        simp only [Option.map_some, Option.bind_some] at h
        cases hl : all (fun e : Addr × Option Account => (wrapAccount.spec e.2).map (e.1.val ++ ·)) l with
        | none => simp [hl] at h
        | some bs' =>
          obtain ⟨l', rfl, rfl⟩ := (ih bs').mp hl
          rw [hl] at h
          refine ⟨(a, acc) :: l', by simp, ?_⟩
          simpa using h.symm
    · rintro ⟨l', h1, rfl⟩
      cases l' with
      | nil => cases h1
      | cons e' l' =>
        simp only [List.map_cons, List.cons.injEq, Prod.mk.injEq] at h1
        obtain ⟨⟨rfl, rfl⟩, h2⟩ := h1
        rw [wrapAccount_spec_some, (ih _).mpr ⟨l', h2, rfl⟩]
        simp

theorem all_map {α β : Type} (f : β → Option Bytes) (g : α → β) : ∀ l : List α, all f (l.map g) = all (fun x => f (g x)) l := by
  intro l
  induction l with
  | nil => rfl
  | cons x l ih => simp only [List.map_cons, all, ih]

theorem accountList_enc (l : List (Addr × Option Account)) (bs : Bytes) :
    enc accountListTy {} (l.map ofEntry, ()) = some bs ↔
    ∃ l' : List (Addr × Account), l = l'.map (fun e => (e.1, some e.2)) ∧
      l'.length < 65536 ∧ bs = accountFile l' := by
  have hm : maxLen .u16 = 65535 := rfl
  have he : enc accountListTy {} (l.map ofEntry, ()) =
      (Beserial.Spec.len { lenTag := some .u16 } l.length).bind fun a =>
        (all (fun e => enc accountTy {} (ofEntry e)) l).bind fun b => some (a ++ b) := by
    simp only [accountListTy, enc, encFields, fieldTags_u16, Option.bind_eq_bind, Option.pure_def, Option.bind_some,
      List.length_map, all_map]
    cases Beserial.Spec.len { lenTag := some .u16 } l.length <;>
      cases all (fun e => enc accountTy {} (ofEntry e)) l <;> simp
  rw [he]
  simp only [Beserial.Spec.len, hm]
  constructor
  · intro h
    by_cases hl : l.length ≤ 65535
    · rw [if_pos hl] at h
      cases ha : all (fun e => enc accountTy {} (ofEntry e)) l with
      | none => simp [ha] at h
      | some bs' =>
        rw [ha] at h
        obtain ⟨l', rfl, rfl⟩ := (accounts_all l bs').mp ha
        rw [List.length_map] at hl h
        refine ⟨l', rfl, by omega, ?_⟩
        simp only [Option.bind_some, Option.some.injEq] at h
        rw [← h]; rfl
    · rw [if_neg hl] at h; simp at h
  · rintro ⟨l', rfl, h2, rfl⟩
    rw [List.length_map, if_pos (by omega), (accounts_all _ _).mpr ⟨l', rfl, rfl⟩]
    simp [accountFile, LenKind.size]

/-! ## C78 -/

/-- C78. A profile opens iff its toml file decodes, its block file is completely one block, and its account file is byte for
byte a 16 bit count followed by that many addresses and accounts; the profile has exactly those. -/
theorem C78_open_iff (config : Option Config) (blockBuf accountsBuf : Option Bytes) (p : Profile) :
    openProfile config blockBuf accountsBuf = .ok p ↔
      config = some p.config ∧
      (∃ buf, blockBuf = some buf ∧ UnmarshalFull blockTy blockTy.zero buf = .ok p.block) ∧
      ∃ l : List (Addr × Account), l.length < 65536 ∧ accountsBuf = some (accountFile l) ∧
        p.accounts = l.map fun e => (e.1, some e.2) := by
  unfold openProfile
  constructor
  · intro h
    cases config with
    | none => cases h
    | some conf =>
      cases blockBuf with
      | none => cases h
      | some bb =>
        simp only [] at h
        cases hb : UnmarshalFull blockTy blockTy.zero bb with
        | err e => rw [hb] at h; cases h
        | panic => rw [hb] at h; cases h
        | ok block =>
          rw [hb] at h
          cases accountsBuf with
          | none => cases h
          | some ab =>
            simp only [bind, Out.bind] at h
            cases ha : UnmarshalFull accountListTy accountListTy.zero ab with
            | err e => rw [ha] at h; cases h
            | panic => rw [ha] at h; cases h
            | ok l =>
              rw [ha] at h
              obtain ⟨l, ⟨⟩⟩ := l
              cases h
              have hl : l = (l.map toEntry).map ofEntry := by
                rw [List.map_map]; exact (List.map_id l).symm
              have hc := (C37_full_canonical accountListTy accountList_good _ _ _).mp ha
              rw [hl] at hc
              obtain ⟨l', h1, h2, rfl⟩ := (accountList_enc _ ab).mp hc
              exact ⟨rfl, ⟨bb, rfl, hb⟩, l', h2, rfl, h1⟩
  · rintro ⟨rfl, ⟨bb, rfl, hb⟩, l, h1, rfl, h2⟩
    have hl := (accountList_enc (l.map fun e => (e.1, some e.2)) (accountFile l)).mpr ⟨l, rfl, h1, rfl⟩
    have ha := (C37_full_canonical accountListTy accountList_good accountListTy.zero _ _).mpr hl
    simp only [hb, ha, bind, Out.bind, pure]
    obtain ⟨c, b, a⟩ := p
    simp only at h2
    subst h2
    have : ((l.map fun e => (e.1, some e.2)).map ofEntry).map toEntry = l.map fun e => (e.1, some e.2) := by
      rw [List.map_map]; exact List.map_id _
    rw [this]

/-- C78. In an opened profile every account is present and the block's transactions are. -/
theorem C78_no_nil (config : Option Config) (blockBuf accountsBuf : Option Bytes) (p : Profile)
    (h : openProfile config blockBuf accountsBuf = .ok p) :
    (∀ e ∈ p.accounts, e.2 ≠ none) ∧ ∃ block, Block.ofVal p.block = some block := by
  obtain ⟨_, ⟨buf, _, hb⟩, l, _, _, hl⟩ := (C78_open_iff _ _ _ _).mp h
  refine ⟨fun e he => ?_, decoded_full hb⟩
  rw [hl] at he
  obtain ⟨x, _, rfl⟩ := List.mem_map.mp he
  simp

/-! ## C79 -/

/-- C79 is violated: whatever "the hash of a block" is, a profile whose configured genesis hash is not the hash of its block
opens as well as one where it is: the configured hash is never looked at. -/
theorem C79_violated (hashOf : blockTy.Val → Hash32) (conf : Config) (blockBuf accountsBuf : Bytes) (p : Profile)
    (h : openProfile (some conf) (some blockBuf) (some accountsBuf) = .ok p) :
    ∃ conf' p', openProfile (some conf') (some blockBuf) (some accountsBuf) = .ok p' ∧
      p'.config.genesisHash ≠ hashOf p'.block ∧
      ∀ E n, p'.initAccounts E n = p.initAccounts E n := by
  obtain ⟨h1, h2, h3⟩ := (C78_open_iff _ _ _ _).mp h
  have hne : ∃ x : Hash32, x ≠ hashOf p.block := by
    by_cases hz : BArr.zero 32 = hashOf p.block
    · refine ⟨⟨List.replicate 32 1, by simp⟩, ?_⟩
      rw [← hz]
      intro e
      have := congrArg (fun b : Hash32 => b.val.head?) e
      revert this
      decide
    · exact ⟨_, hz⟩
  obtain ⟨x, hx⟩ := hne
  refine ⟨{ conf with genesisHash := x }, { p with config := { conf with genesisHash := x } }, ?_, hx, fun _ _ => rfl⟩
  exact (C78_open_iff _ _ _ _).mpr ⟨rfl, h2, h3⟩

end Nimiq.Genesis
