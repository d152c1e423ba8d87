import Verif.Lemmas.TokenStream
import Verif.Props.TokenStore
/-!
# Histories in which slots are finalized: the finalized tables
-/
namespace LAM.Token
open Spec ProcStore Run
open TokenStore (TOp)

/-- Not a closing of another key with the first four bytes of `pk`. -/
def NoTwin (pk : Pubkey) (x : ProgramAccount) : Prop := ∀ p, x = .deleted p → p ≠ pk → prefix4 p ≠ prefix4 pk

theorem account_eq (o : TOp) : o.account = submittedBy o := by cases o <;> rfl

theorem noTwin_of {X : Codecs} {pk : Pubkey} {a : AccountData}
    (hw : a.pubkey ≠ pk → prefix4 a.pubkey = prefix4 pk → ∀ T T', classify X T a ≠ .ok (some (.deleted a.pubkey), T'))
    {T : MintTable} {x : ProgramAccount} {T' : MintTable} (h : classify X T a = .ok (some x, T')) : NoTwin pk x := by
  rintro p rfl hne he
  have := (classify_some h).1
  simp only [ProgramAccount.pubkey] at this
  subst this
  exact hw hne he _ _ h

theorem stream_inv {X : Codecs} {ops : List TOp} {s : TokenStore} {pk : Pubkey} (hn : ops.length < 2 ^ 31)
    (hw : NoTwinClosed X pk ops) (hr : TokenStore.run X ops .empty = .ok s) :
    ∃ slots orig, Inv (NoTwin pk) ops.length s slots orig := by
  have := run_inv (X := X) ops (inv_empty (NoTwin pk)) (by simpa using hn) (by
    intro o ho a ha T x T' hx
    rw [account_eq] at ha
    exact noTwin_of (hw o ho a ha) hx) hr
  simpa using this

/-- If token accounts are looked at (`w`): not a closing of another key with the first four bytes of `pk`. -/
def TwinFree (w : Bool) (pk : Pubkey) (x : ProgramAccount) : Prop := w = true → NoTwin pk x

theorem twinFree_of {X : Codecs} {pk : Pubkey} {a : AccountData} {w : Bool}
    (hw : w = true → a.pubkey ≠ pk → prefix4 a.pubkey = prefix4 pk → ∀ T T', classify X T a ≠ .ok (some (.deleted a.pubkey), T'))
    {T : MintTable} {x : ProgramAccount} {T' : MintTable} (h : classify X T a = .ok (some x, T')) : TwinFree w pk x :=
  fun e => noTwin_of (hw e) h

theorem free_inv {X : Codecs} {ops : List TOp} {s : TokenStore} {pk : Pubkey} {w : Bool} (hn : ops.length < 2 ^ 31)
    (hw : w = true → NoTwinClosed X pk ops) (hr : TokenStore.run X ops .empty = .ok s) :
    ∃ slots orig, Inv (TwinFree w pk) ops.length s slots orig := by
  have := run_inv (X := X) ops (inv_empty (TwinFree w pk)) (by simpa using hn) (by
    intro o ho a ha T x T' hx
    rw [account_eq] at ha
    exact twinFree_of (fun e => hw e o ho a ha) hx) hr
  simpa using this

/-- The records that are looked at. -/
def Rec.look (w : Bool) (r : Rec) : Rec := if w then r else r.solid

theorem look_apply {r r' : Rec} {w : Bool} (x : ProgramAccount) (h : r.look w = r'.look w) : (r.apply x).look w = (r'.apply x).look w := by
  cases w with
  | true => simp only [Rec.look, if_true] at h ⊢; rw [h]
  | false => exact solid_apply x h

theorem look_multi {r r' : Rec} {w : Bool} (h : r.look w = r'.look w) : r.multi = r'.multi := by
  cases w <;> simpa [Rec.look, Rec.solid] using congrArg Rec.multi h

theorem look_mint {r r' : Rec} {w : Bool} (h : r.look w = r'.look w) : r.mint = r'.mint := by
  cases w <;> simpa [Rec.look, Rec.solid] using congrArg Rec.mint h

/-- The finalized tables hold the same for `pk`, except that it may get an index as mint, and, unless token accounts are looked
at, that it may lose its token account. -/
structure Frame (w : Bool) (s s' : TokenStore) (pk : Pubkey) : Prop where
  multi : s'.multisigs.find pk = s.multisigs.find pk
  token : w = true → s'.tokens.getByPubkey pk = s.tokens.getByPubkey pk
  mint : s.table.index.find pk ≠ none → (s'.table.index.find pk).map s'.mints.find = (s.table.index.find pk).map s.mints.find

theorem Frame.rfl {s : TokenStore} {pk : Pubkey} {w : Bool} : Frame w s s pk := ⟨Eq.refl _, fun _ => Eq.refl _, fun _ => Eq.refl _⟩

theorem Frame.trans {s s' s'' : TokenStore} {pk : Pubkey} {w : Bool} (h : Frame w s s' pk) (h' : Frame w s' s'' pk) : Frame w s s'' pk := by
  refine ⟨h'.multi.trans h.multi, fun e => (h'.token e).trans (h.token e), fun hn => ?_⟩
  have e := h.mint hn
  rw [← e]
  refine h'.mint ?_
  intro h0
  rw [h0] at e
  cases hs : s.table.index.find pk with
  | none => exact hn hs
  | some i => rw [hs] at e; simp at e

/-- Records that look the same. -/
theorem frame_of_look {Q Q' : ProgramAccount → Prop} {s s' : TokenStore} {slots orig slots' orig' : List TokenAccount} {w : Bool}
    {pk : Pubkey} (h : Fin Q s slots orig) (h' : Fin Q' s' slots' orig')
    (hr : (recOf s' slots' pk).look w = (recOf s slots pk).look w) :
    Frame w s s' pk ∧ (s'.table.index.find pk).map s'.mints.find = (s.table.index.find pk).map s.mints.find :=
  ⟨⟨look_multi hr, fun e => by
    subst e
    simp only [Rec.look, if_true] at hr
    rw [getByPubkey_recOf h, getByPubkey_recOf h', hr], fun _ => look_mint hr⟩, look_mint hr⟩

/-- The account is neither a token account nor a deletion, unless token accounts are looked at. -/
def Seen (w : Bool) (x : ProgramAccount) : Prop := w = false → (∀ t, x ≠ .token t) ∧ ∀ p, x ≠ .deleted p

theorem holding_frame {s s' : TokenStore} {x : ProgramAccount} {w : Bool} (h : Frame w s s' x.pubkey) (hs : Seen w x) (hx : Holding s x)
    (hdel : ∀ p, x = .deleted p → s'.table.index.find p = none) : Holding s' x := by
  cases x with
  | token t =>
    cases w with
    | true => exact (h.token (Eq.refl _)).trans hx
    | false => exact absurd (Eq.refl _) ((hs (Eq.refl _)).1 t)
  | mint m =>
    obtain ⟨i, h1, h2⟩ := hx
    have := h.mint (by simp [ProgramAccount.pubkey, h1])
    simp only [ProgramAccount.pubkey, h1, Option.map_some, h2, Option.map_eq_some_iff] at this
    exact this
  | multisig m p =>
    have := h.multi
    simp only [ProgramAccount.pubkey] at this
    simp only [Holding] at hx ⊢
    rw [this]; exact hx
  | deleted p =>
    obtain ⟨-, h2, h3⟩ := hx
    cases w with
    | true => exact ⟨hdel p (Eq.refl _), by rw [← h2]; exact h.multi, by rw [← h3]; exact h.token (Eq.refl _)⟩
    | false => exact absurd (Eq.refl _) ((hs (Eq.refl _)).2 p)

theorem holding_of_look {Q : ProgramAccount → Prop} {s s' : TokenStore} {slots slots' orig' : List TokenAccount} {w : Bool}
    (h' : Fin Q s' slots' orig') {x : ProgramAccount} (hs : Seen w x)
    (hr : (recOf s' slots' x.pubkey).look w = ((recOf s slots x.pubkey).apply x).look w)
    (hdel : ∀ pk, x = .deleted pk → s.multisigs.find pk = none ∧
      ((recOf s slots pk).mint = none ∨ (recOf s slots pk).token = none)) : Holding s' x := by
  cases w with
  | true => exact Props.holding_of_rec h' hr hdel
  | false =>
    obtain ⟨s1, s2⟩ := hs (Eq.refl _)
    cases x with
    | token t => exact absurd (Eq.refl _) (s1 t)
    | deleted p => exact absurd (Eq.refl _) (s2 p)
    | mint m =>
      have := look_mint hr
      simp only [ProgramAccount.pubkey, recOf, Rec.apply, Option.map_eq_some_iff] at this
      obtain ⟨i, h1, h2⟩ := this
      exact ⟨i, h1, h2⟩
    | multisig m pk =>
      have := look_multi hr
      simp only [ProgramAccount.pubkey, recOf, Rec.apply] at this
      exact this

theorem index_of_map {s s' : TokenStore} {pk : Pubkey}
    (h : (s'.table.index.find pk).map s'.mints.find = (s.table.index.find pk).map s.mints.find) (hn : s.table.index.find pk = none) :
    s'.table.index.find pk = none := by
  rw [hn] at h; simpa using h

/-- A submission, unless it stores a state of `pk` at once, leaves the finalized records of `pk`. -/
theorem update_frame {X : Codecs} {s s' : TokenStore} {n : Nat} {slots orig : List TokenAccount} {pk : Pubkey} {a : AccountData}
    {c : Commitment} {b w : Bool} (inv : Inv (TwinFree w pk) n s slots orig) (hn : n < 2 ^ 31 - 1)
    (hw : w = true → a.pubkey ≠ pk → prefix4 a.pubkey = prefix4 pk → ∀ T T', classify X T a ≠ .ok (some (.deleted a.pubkey), T'))
    (ho : c = .finalized → a.pubkey ≠ pk) (hu : s.updateAccount X a c = .ok (b, s')) :
    Frame w s s' pk ∧ ((∀ x T', classify X s.table a = .ok (x, T') → s.table.index.find pk = none → T'.index.find pk = none) →
      s.table.index.find pk = none → s'.table.index.find pk = none) := by
  have hcb := inv.cbound
  have hb := inv.bound
  unfold TokenStore.updateAccount at hu
  simp only [Run.bind_eq_ok] at hu
  obtain ⟨isT, -, hu⟩ := hu
  split at hu
  · simp at hu; obtain ⟨-, rfl⟩ := hu; exact ⟨.rfl, fun _ h => h⟩
  · simp only [Run.bind_eq_ok] at hu
    obtain ⟨⟨r, T⟩, hcl, hu⟩ := hu
    obtain ⟨h1, h2, h3, h4, h5, h6⟩ := classify_inv inv.fin (by omega) (fun x T' hx => twinFree_of hw hx) hcl
    have hT : s.table.index.find pk ≠ none → T.index.find pk = s.table.index.find pk := by
      intro hi
      obtain ⟨i, hi⟩ := Option.ne_none_iff_exists'.1 hi
      rw [h4 pk i hi, hi]
    simp only at hu
    split at hu
    · simp at hu; obtain ⟨-, rfl⟩ := hu
      exact ⟨⟨rfl, fun _ => rfl, fun h => by simp only [hT h]⟩, fun h hi => h _ _ hcl hi⟩
    · rename_i x
      split at hu
      · simp only [Run.pure_eq, Run.ok.injEq, Prod.mk.injEq] at hu
        obtain ⟨-, rfl⟩ := hu
        exact ⟨⟨rfl, fun _ => rfl, fun h => by simp only [hT h]⟩, fun h hi => h _ _ hcl hi⟩
      · rename_i hc
        simp only [Run.bind_eq_ok] at hu
        obtain ⟨s1, hs1, hu⟩ := hu
        simp only [Run.pure_eq, Run.ok.injEq, Prod.mk.injEq] at hu
        obtain ⟨-, rfl⟩ := hu
        have hne : a.pubkey ≠ pk := ho (by cases c <;> simp_all)
        obtain ⟨hk, hq⟩ := h5 x rfl
        obtain ⟨s2, slots', orig', e1, e2, -, -, -, -, -, -, e3, -, e6, e7⟩ := add_fin h1 hq.1 hq.2.1 hq.2.2 (by omega) (by simp; omega)
        rw [hs1] at e1; cases e1
        have hnk : pk ≠ x.pubkey := by rw [hk]; exact fun e => hne e.symm
        have hrec : (recOf s1 slots' pk).look w = (recOf { s with table := T } slots pk).look w := by
          by_cases hclash : Clash { s with table := T } x pk
          · cases w with
            | true =>
              obtain ⟨p, hpx, -, hpp⟩ := hclash
              subst hpx
              simp only [ProgramAccount.pubkey] at hk
              exact absurd hpp (hq.2.1 rfl p rfl (by rw [hk]; exact hne))
            | false => rw [e6 pk hnk hclash]; rfl
          · rw [e7 pk hnk hclash]
        obtain ⟨hfr, hmi⟩ := frame_of_look h1 e2 hrec
        refine ⟨⟨hfr.multi, hfr.token, fun h => ?_⟩, fun h hi => ?_⟩
        · rw [hmi]; simp only [hT h]
        · exact index_of_map hmi (h _ _ hcl hi)

/-- A notification that finalizes nothing leaves the finalized tables. -/
theorem slot_frame {w : Bool} {s s' : TokenStore} {σ : Orders} {info : SlotInfo} {c : Commitment} (hc : c ≠ .finalized)
    {n : List AccountData} (h : s.processSlot σ info c = .ok (n, s')) (pk : Pubkey) :
    Frame w s s' pk ∧ s'.table = s.table := by
  cases c with
  | processed =>
    simp only [TokenStore.processSlot, Run.ok.injEq, Prod.mk.injEq] at h
    obtain ⟨-, rfl⟩ := h
    exact ⟨⟨rfl, fun _ => rfl, fun _ => rfl⟩, rfl⟩
  | confirmed =>
    simp only [TokenStore.processSlot, Run.bind_eq_ok] at h
    obtain ⟨⟨l, P⟩, hg, h⟩ := h
    simp only [Run.pure_eq, Run.ok.injEq, Prod.mk.injEq] at h
    obtain ⟨-, rfl⟩ := h
    split <;> exact ⟨⟨rfl, fun _ => rfl, fun _ => rfl⟩, rfl⟩
  | finalized => exact absurd rfl hc

/-- A call that finalizes no slot leaves the finalized records of `pk`, unless it stores a state of `pk` at once. -/
theorem step_frame {X : Codecs} {s s' : TokenStore} {n : Nat} {slots orig : List TokenAccount} {pk : Pubkey} {o : TOp} {w : Bool}
    (inv : Inv (TwinFree w pk) n s slots orig) (hn : n < 2 ^ 31 - 1)
    (hw : w = true → ∀ a, submittedBy o = some a → a.pubkey ≠ pk → prefix4 a.pubkey = prefix4 pk →
      ∀ T T', classify X T a ≠ .ok (some (.deleted a.pubkey), T'))
    (hf : ∀ σ info, o ≠ .slot σ info .finalized) (ho : ∀ a, AtOnce o → submittedBy o = some a → a.pubkey ≠ pk)
    (hr : s.step X o = .ok s') :
    Frame w s s' pk ∧ ((∀ a, submittedBy o = some a → ∀ x T', classify X s.table a = .ok (x, T') → s.table.index.find pk = none →
      T'.index.find pk = none) → s.table.index.find pk = none → s'.table.index.find pk = none) := by
  cases o with
  | slot σ info c =>
    obtain ⟨n, h3⟩ := step_slot hr
    obtain ⟨h1, h2⟩ := slot_frame (fun e => hf σ info (by rw [e])) h3 pk
    exact ⟨h1, fun _ h => by rw [h2]; exact h⟩
  | init a =>
    simp only [TokenStore.step, init_eq_update, Run.bind_eq_ok] at hr
    obtain ⟨⟨b, s3⟩, h3, h2⟩ := hr
    simp at h2; subst h2
    obtain ⟨h1, h2⟩ := update_frame inv hn (fun e => hw e a rfl) (fun _ => ho a trivial rfl) h3
    exact ⟨h1, fun h => h2 (h a rfl)⟩
  | update a c =>
    simp only [TokenStore.step, Run.bind_eq_ok] at hr
    obtain ⟨⟨b, s3⟩, h3, h2⟩ := hr
    simp at h2; subst h2
    obtain ⟨h1, h2⟩ := update_frame inv hn (fun e => hw e a rfl) (fun hc => ho a hc rfl) h3
    exact ⟨h1, fun h => h2 (h a rfl)⟩

/-- Storing a state of `pk` at once applies it to the records of `pk`. -/
theorem update_own {X : Codecs} {s s' : TokenStore} {n : Nat} {slots orig : List TokenAccount} {Q : ProgramAccount → Prop}
    {a : AccountData} {b : Bool} (inv : Inv Q n s slots orig) (hn : n < 2 ^ 31 - 1)
    (hq : ∀ x T', classify X s.table a = .ok (some x, T') → Q x) (hu : s.updateAccount X a .finalized = .ok (b, s')) :
    (s'.multisigs = s.multisigs ∧ s'.mints = s.mints ∧ s'.tokens = s.tokens ∧ s'.table = s.table) ∨
    ∃ x T slots' orig', classify X s.table a = .ok (some x, T) ∧ x.pubkey = a.pubkey ∧ Fin Q s' slots' orig' ∧
      recOf s' slots' a.pubkey = (recOf { s with table := T } slots a.pubkey).apply x := by
  have hcb := inv.cbound
  have hb := inv.bound
  unfold TokenStore.updateAccount at hu
  simp only [Run.bind_eq_ok] at hu
  obtain ⟨isT, -, hu⟩ := hu
  split at hu
  · simp at hu; obtain ⟨-, rfl⟩ := hu; exact .inl ⟨rfl, rfl, rfl, rfl⟩
  · simp only [Run.bind_eq_ok] at hu
    obtain ⟨⟨r, T⟩, hcl, hu⟩ := hu
    obtain ⟨h1, h2, h3, h4, h5, h6⟩ := classify_inv inv.fin (by omega) hq hcl
    simp only at hu
    split at hu
    · simp at hu; obtain ⟨-, rfl⟩ := hu
      exact .inl ⟨rfl, rfl, rfl, h6 rfl⟩
    · rename_i x
      rw [if_neg (by simp)] at hu
      simp only [Run.bind_eq_ok] at hu
      obtain ⟨s1, hs1, hu⟩ := hu
      simp only [Run.pure_eq, Run.ok.injEq, Prod.mk.injEq] at hu
      obtain ⟨-, rfl⟩ := hu
      obtain ⟨hk, hq⟩ := h5 x rfl
      obtain ⟨s2, slots', orig', e1, e2, -, -, -, -, -, -, e3, e4, -, -⟩ := add_fin h1 hq.1 hq.2.1 hq.2.2 (by omega) (by simp; omega)
      rw [hs1] at e1; cases e1
      rw [hk] at e4
      exact .inr ⟨x, T, slots', orig', hcl, hk, e2, e4⟩

/-- The finalized state after a finalization: that of the newest recorded state, if there is one. -/
theorem finalized_own {w : Bool} {s s' : TokenStore} {n : Nat} {slots orig : List TokenAccount} {pk : Pubkey} {σ : Orders} {info : SlotInfo}
    {notes : List AccountData} (inv : Inv (TwinFree w pk) n s slots orig) (hn : n < 2 ^ 31 - 1)
    (hs : s.processSlot σ info .finalized = .ok (notes, s')) :
    ∃ slots' orig', Fin (TwinFree w pk) s' slots' orig' ∧
      (∀ x k, NewestOn (noted s info s.finalizedSlot) pk info.slot x k →
        x.account.pubkey = pk ∧ (recOf s' slots' pk).look w = ((recOf s slots pk).apply x.account).look w) ∧
      ((∀ x k, ¬ NewestOn (noted s info s.finalizedSlot) pk info.slot x k) → Frame w s s' pk ∧
        (s'.table.index.find pk).map s'.mints.find = (s.table.index.find pk).map s.mints.find) := by
  obtain ⟨slots', orig', inv', -, -, -, h, hsolid⟩ := finalized_spec inv hn hs
  have hp : ProcOk (Waiting (TwinFree w pk) s.table.counter) (noted s info s.finalizedSlot) := by
    unfold noted; split
    · exact (inv.proc.updateSlotInfo info).1
    · exact inv.proc
  cases w with
  | true =>
    obtain ⟨h1, h2⟩ := h pk (by
      rintro p x k hne he hx rfl'
      exact (newest_good hp hx).2.2.1 rfl p rfl' hne he)
    exact ⟨slots', orig', inv'.fin, fun x k hx => ⟨(newest_good hp hx).1, by rw [h1 x k hx]⟩,
      fun hx => frame_of_look inv.fin inv'.fin (by rw [h2 hx])⟩
  | false =>
    obtain ⟨h1, h2⟩ := hsolid pk
    exact ⟨slots', orig', inv'.fin, fun x k hx => ⟨(newest_good hp hx).1, h1 x k hx⟩,
      fun hx => frame_of_look inv.fin inv'.fin (h2 hx)⟩

/-- What a submission does to the table of waiting states. -/
theorem update_entered {X : Codecs} {s s' : TokenStore} {a : AccountData} {c : Commitment} {b : Bool}
    (h : s.updateAccount X a c = .ok (b, s')) : s'.processed = s.processed ∨
      ∃ x T', classify X s.table a = .ok (some x, T') ∧ s'.processed = (s.processed.insertAccount a.pubkey x a.wv a.slot).2 := by
  unfold TokenStore.updateAccount at h
  simp only [Run.bind_eq_ok] at h
  obtain ⟨isT, -, h⟩ := h
  split at h
  · simp at h; obtain ⟨-, rfl⟩ := h; exact .inl rfl
  · simp only [Run.bind_eq_ok] at h
    obtain ⟨⟨r, T⟩, hcl, h⟩ := h
    simp only at h
    split at h
    · simp at h; obtain ⟨-, rfl⟩ := h; exact .inl rfl
    · rename_i x
      split at h
      · simp only [Run.pure_eq, Run.ok.injEq, Prod.mk.injEq] at h
        obtain ⟨-, rfl⟩ := h
        exact .inr ⟨x, T, hcl, rfl⟩
      · simp only [Run.bind_eq_ok] at h
        obtain ⟨s1, hs1, h⟩ := h
        simp only [Run.pure_eq, Run.ok.injEq, Prod.mk.injEq] at h
        obtain ⟨-, rfl⟩ := h
        exact .inl (addFinalized_processed hs1).1

/-- A key that is only ever a token account is never stored as multisig or mint. -/
theorem stream_only {X : Codecs} {s : TokenStore} {pk : Pubkey} (ops : List TOp) (hn : ops.length < 2 ^ 31)
    (hk : OnlyToken X pk ops) (hr : TokenStore.run X ops .empty = .ok s) :
    s.multisigs.find pk = none ∧ s.table.index.find pk = none ∧
      ∀ k y, stateAt s.processed k pk = some y → (∃ t, y.account = .token t) ∨ y.account = .deleted pk := by
  induction ops using List.reverseRecOn generalizing s with
  | nil =>
    simp [TokenStore.run] at hr; subst hr
    exact ⟨rfl, rfl, fun k y h => by simp [stateAt, TokenStore.empty] at h⟩
  | append_singleton ops o ih =>
    obtain ⟨s1, h1, h2⟩ := run_snoc hr
    simp only [List.length_append, List.length_cons, List.length_nil] at hn
    obtain ⟨i1, i2, i3⟩ := ih (by omega) (fun o ho => hk o (by simp [ho])) h1
    obtain ⟨slots, orig, inv⟩ := free_inv (pk := pk) (w := false) (by omega) (by simp) h1
    have hko := hk o (by simp)
    -- what a finalized state of `pk` does to its records
    have happ : ∀ (s0 : TokenStore) (slots0 slots' : List TokenAccount) (x : ProgramAccount), s0.multisigs.find pk = none →
        s0.table.index.find pk = none → ((∃ t, x = .token t) ∨ x = .deleted pk) →
        (recOf s slots' pk).look false = ((recOf s0 slots0 pk).apply x).look false → s.multisigs.find pk = none ∧ s.table.index.find pk = none := by
      intro s0 slots0 slots' x j1 j2 hx he
      have e1 := look_multi he
      have e2 := look_mint he
      rcases hx with ⟨t, rfl⟩ | rfl
      · simp only [recOf, Rec.apply, j1, j2] at e1 e2
        exact ⟨e1, by simpa using e2⟩
      · simp only [recOf, Rec.apply, j1, j2] at e1 e2
        exact ⟨by simpa using e1, by simpa using e2⟩
    rcases finalizing o with ⟨σ, info, rfl⟩ | hf
    · obtain ⟨n, h3⟩ := step_slot h2
      obtain ⟨slots', orig', fin', g1, g2⟩ := finalized_own inv (by omega) h3
      have hproc : ∀ k y, stateAt s.processed k pk = some y → stateAt s1.processed k pk = some y := by
        intro k y hy
        obtain ⟨-, -, -, -, -, hdrop, -⟩ := finalized_spec inv (by omega) h3
        by_cases hd : k ≤ info.slot ∨ OnChain (noted s1 info s1.finalizedSlot) info.slot k
        · simp [stateAt, (hdrop k).1 hd] at hy
        · simpa [stateAt, (hdrop k).2 hd] using hy
      refine and_assoc.1 ⟨?_, fun k y hy => i3 k y (hproc k y hy)⟩
      by_cases hx : ∃ x k, NewestOn (noted s1 info s1.finalizedSlot) pk info.slot x k
      · obtain ⟨x, k, hx⟩ := hx
        have hst := newestOn_state hx
        rw [stateAt_noted] at hst
        exact happ s1 slots slots' _ i1 i2 (i3 k x hst) (g1 x k hx).2
      · have hs := g2 (fun x k h => hx ⟨x, k, h⟩)
        exact ⟨by rw [hs.1.multi]; exact i1, index_of_map hs.2 i2⟩
    · have hproc : ∀ k y, stateAt s.processed k pk = some y → (∃ t, y.account = .token t) ∨ y.account = .deleted pk := by
        intro k y hy
        cases o with
        | slot σ info c =>
          obtain ⟨n, h3⟩ := step_slot h2
          rw [slot_stateAt (fun e => hf σ info (by rw [e])) h3] at hy
          exact i3 k y hy
        | init a =>
          simp only [TokenStore.step, init_eq_update, Run.bind_eq_ok] at h2
          obtain ⟨⟨b, s3⟩, h3, h2⟩ := h2
          simp at h2; subst h2
          rw [update_final_processed h3] at hy
          exact i3 k y hy
        | update a c =>
          simp only [TokenStore.step, Run.bind_eq_ok] at h2
          obtain ⟨⟨b, s3⟩, h3, h2⟩ := h2
          simp at h2; subst h2
          rcases update_entered h3 with e | ⟨x, T', hcl, e⟩
          · rw [e] at hy; exact i3 k y hy
          · rw [e, stateAt_insertAccount] at hy
            split at hy
            · rename_i hm
              have hx := (hko a rfl _ _ _ hcl).1 hm.2 x rfl
              split at hy
              · rename_i old hold
                split at hy
                · cases hy; exact hx
                · cases hy; exact i3 k _ hold
              · cases hy; exact hx
            · exact i3 k y hy
      refine and_assoc.1 ⟨?_, hproc⟩
      by_cases hown : ∃ a, AtOnce o ∧ submittedBy o = some a ∧ a.pubkey = pk
      · obtain ⟨a, ho1, ho2, rfl⟩ := hown
        have hu : ∃ b, s1.updateAccount X a .finalized = .ok (b, s) := by
          cases o with
          | slot σ info c => exact absurd ho1 id
          | init a' =>
            cases ho2
            simp only [TokenStore.step, init_eq_update, Run.bind_eq_ok] at h2
            obtain ⟨⟨b, s3⟩, h3, h2⟩ := h2
            simp at h2; subst h2
            exact ⟨b, h3⟩
          | update a' c =>
            cases ho2
            simp only [AtOnce] at ho1
            subst ho1
            simp only [TokenStore.step, Run.bind_eq_ok] at h2
            obtain ⟨⟨b, s3⟩, h3, h2⟩ := h2
            simp at h2; subst h2
            exact ⟨b, h3⟩
        obtain ⟨b, hu⟩ := hu
        rcases update_own inv (by omega) (fun _ _ _ => by simp [TwinFree]) hu with
          ⟨e1, e2, e3, e4⟩ | ⟨x, T, slots', orig', hcl, hxk, fin', he⟩
        · exact ⟨by rw [e1]; exact i1, by rw [e4]; exact i2⟩
        · obtain ⟨k1, k2⟩ := hko a ho2 _ _ _ hcl
          exact happ { s1 with table := T } slots slots' x i1 (k2 i2) (k1 rfl x rfl) (by rw [he])
      · obtain ⟨f1, f2⟩ := step_frame inv (by omega) (by simp) hf
          (fun a ho1 ho2 he => hown ⟨a, ho1, ho2, he⟩) h2
        exact ⟨by rw [f1.multi]; exact i1, f2 (fun a ha x T' hcl => (hko a ha _ _ _ hcl).2) i2⟩

theorem newest_mem_ops {ops : List TOp} {par : Nat → Nat} {pk : Pubkey} {s k : Nat} {a : AccountData}
    (h : NewestTrue ops par pk s a k) : ∃ c, TOp.update a c ∈ ops ∧ a.pubkey = pk ∧ a.slot = k := by
  induction h with
  | @here s a hb =>
    obtain ⟨l1, l2, e, -⟩ := hb
    have : a ∈ submittedAt ops pk s := by rw [e]; simp
    simp only [submittedAt, List.mem_filterMap] at this
    obtain ⟨o, ho, h⟩ := this
    cases o with
    | update b c =>
      simp only at h
      split at h
      · rename_i hc; cases h; exact ⟨c, ho, hc.2⟩
      · simp at h
    | _ => simp at h
  | up _ _ ih => exact ih

/-- The states submitted for `pk` are neither token accounts nor deletions, unless token accounts are looked at. -/
def SeenKey (X : Codecs) (w : Bool) (pk : Pubkey) (ops : List TOp) : Prop :=
  ∀ o ∈ ops, ∀ a, submittedBy o = some a → a.pubkey = pk → ∀ T x T', classify X T a = .ok (some x, T') → Seen w x

theorem seenKey_true {X : Codecs} {pk : Pubkey} {ops : List TOp} : SeenKey X true pk ops := fun _ _ _ _ _ _ _ _ _ e => by simp at e

/-- **The newest state on the finalized chain is the stored one.** -/
theorem stream_holds {w : Bool} {X : Codecs} {par : Nat → Nat} {s : TokenStore} {pk : Pubkey} (ops : List TOp) (hn : ops.length < 2 ^ 31)
    (hd : ∀ i, par i ≤ i) (hp : TrueParents par ops) (ht : OnTime ops) (hc : Chained X par pk ops) (hl : LoadedFirst pk ops)
    (hw : w = true → NoTwinClosed X pk ops) (hv : SeenKey X w pk ops) (ha : Accepted X pk ops)
    (hk : NeverClosed X pk ops ∨ OnlyToken X pk ops)
    (hr : TokenStore.run X ops .empty = .ok s) (h0 : 0 < lastFinal ops) {a : AccountData} {k : Nat}
    (hnew : NewestTrue ops par pk (lastFinal ops) a k) :
    ∃ x, Taken X ops a x ∧ x.pubkey = pk ∧ Holding s x := by
  induction ops using List.reverseRecOn generalizing s a k with
  | nil => simp [lastFinal] at h0
  | append_singleton ops o ih =>
    obtain ⟨s1, h1, h2⟩ := run_snoc hr
    have hn1 := hn
    simp only [List.length_append, List.length_cons, List.length_nil] at hn
    have hw' : w = true → NoTwinClosed X pk ops := fun e o ho => hw e o (by simp [ho])
    obtain ⟨slots, orig, inv⟩ := free_inv (pk := pk) (by omega) hw' h1
    have hk' : NeverClosed X pk ops ∨ OnlyToken X pk ops := by
      rcases hk with hk | hk
      · exact .inl (fun o ho => hk o (by simp [ho]))
      · exact .inr (fun o ho => hk o (by simp [ho]))
    have ih := fun {a : AccountData} {k : Nat} => ih (s := s1) (a := a) (k := k) (by omega) (parents_left hp) (onTime_left ht) (chained_left hc) (loadedFirst_left hl) hw'
      (fun o ho => hv o (by simp [ho])) (accepted_left ha) hk' h1
    have hold : ∀ {a : AccountData} {k : Nat}, NewestTrue (ops ++ [o]) par pk (lastFinal ops) a k → NewestTrue ops par pk (lastFinal ops) a k :=
      fun h => newest_congr hd (fun i hi => (submitted_frozen ht pk hi).symm) h
    -- a closed state is not newest, or the key is no mint
    have hdel : ∀ {a : AccountData} {k : Nat} {p : Pubkey}, NewestTrue (ops ++ [o]) par pk (lastFinal (ops ++ [o])) a k →
        Taken X ops a (.deleted p) → p = pk ∧ OnlyToken X pk (ops ++ [o]) := by
      rintro a k p hx ⟨-, -, -, s0, s0', -, -, -, -, hcl⟩
      obtain ⟨c, hm, hak, -⟩ := newest_mem_ops hx
      have := (classify_some hcl).1
      simp only [ProgramAccount.pubkey] at this
      rw [hak] at this; subst this
      refine ⟨rfl, ?_⟩
      rcases hk with hk | hk
      · exact absurd hcl (hk _ hm a rfl hak _ _)
      · exact hk
    have hseen : ∀ {a : AccountData} {k : Nat} {x : ProgramAccount}, NewestTrue (ops ++ [o]) par pk (lastFinal (ops ++ [o])) a k →
        Taken X ops a x → Seen w x := by
      rintro a k x hx ⟨-, -, -, s0, s0', -, -, -, -, hcl⟩
      obtain ⟨c, hm, hak, -⟩ := newest_mem_ops hx
      exact hv _ hm a rfl hak _ _ _ hcl
    have hframe : ∀ {x : ProgramAccount}, NewestTrue (ops ++ [o]) par pk (lastFinal (ops ++ [o])) a k →
        Taken X ops a x → x.pubkey = pk → Frame w s1 s pk → Holding s1 x → Holding s x := by
      intro x hx hcl hxk hf hh
      refine holding_frame (by rw [hxk]; exact hf) (hseen hx hcl) hh ?_
      rintro p rfl
      obtain ⟨rfl, ho⟩ := hdel hx hcl
      exact (stream_only (ops ++ [o]) hn1 ho hr).2.1
    rcases finalizing o with ⟨σ, info, rfl⟩ | hf
    · have hlo := lastFinal_snoc ops (.slot σ info .finalized)
      simp only at hlo
      obtain ⟨n, h3⟩ := step_slot h2
      obtain ⟨hs1, -⟩ := run_slots ops (by omega) (parents_left hp) h1
      obtain ⟨slots', orig', fin', g1, g2⟩ := finalized_own inv (by omega) h3
      rw [hs1] at g1 g2
      have hpar := (parents_of (R := fun k p => p = par k ∧ p < k) (fun σ info c h => parents_left hp σ info c h) h1).2
      have hparn : ParentsIn (fun k p => p = par k) (noted s1 info (lastFinal ops)) :=
        parents_noted (ParentsIn.imp hpar (fun _ _ h => h.1)) (hp σ info .finalized (by simp)).1
      have hrec : ∀ i, lastFinal ops < i → RecordedBy (Taken X ops) (submittedAt ops pk i) (stateAt (noted s1 info (lastFinal ops)) i pk) := by
        intro i hi
        rw [stateAt_noted]
        exact stream_recorded ops (by omega) (parents_left hp) (accepted_left ha) h1 hi
      have hlow : ∀ x k, NewestOn (noted s1 info (lastFinal ops)) pk info.slot x k → lastFinal ops < k := by
        intro x k hx
        by_contra hle
        have hst := newestOn_state hx
        rw [stateAt_noted, stream_cleared ops (by omega) (parents_left hp) (onTime_left ht) h1 (by omega)] at hst
        simp at hst
      have hsub : ∀ i, submittedAt (ops ++ [.slot σ info .finalized]) pk i = submittedAt ops pk i := by
        intro i; rw [submissions_snoc]; simp [submittedAt]
      by_cases hle : info.slot ≤ lastFinal ops
      · have hmax : lastFinal (ops ++ [.slot σ info .finalized]) = lastFinal ops := by rw [hlo]; omega
        have hnone : ∀ x k, ¬ NewestOn (noted s1 info (lastFinal ops)) pk info.slot x k := by
          intro x k hx
          have h5 := hlow x k hx
          have := (newestOn_above hd hparn hrec h5 hx).1
          omega
        have hnew' := hnew
        rw [hmax] at hnew' h0
        obtain ⟨x, hcl, hxk, hh⟩ := ih h0 (hold hnew')
        exact ⟨x, taken_left hcl, hxk, hframe hnew hcl hxk (g2 hnone).1 hh⟩
      · have hmax : lastFinal (ops ++ [.slot σ info .finalized]) = info.slot := by rw [hlo]; omega
        obtain ⟨c1, c2⟩ := hc ops σ info [] rfl (by omega)
        have hnew' := hnew
        rw [hmax] at hnew'
        replace hnew' := newest_congr (ops' := ops) hd (fun i _ => (hsub i).symm) hnew'
        by_cases hkF : lastFinal ops < k
        · have hlinks : ∀ i, Ancestor par info.slot i → Ancestor par i k → i ≠ k →
              ∃ e, BMap.find (noted s1 info (lastFinal ops)) i = some e ∧ e.parent = some (par i) := by
            intro i hi1 hi2 hik
            obtain ⟨l1, l2⟩ := c2 i k hi1 hi2 hik hkF (newest_submitted hnew')
            have hiF : lastFinal ops < i := by have := ancestor_le hd hi2; omega
            by_cases hii : i = info.slot
            · subst hii
              have hin := stream_known ops (by omega) (parents_left hp) h1 hiF (l1 rfl)
              unfold noted
              rw [if_pos (by omega)]
              unfold ProcStore.updateSlotInfo
              cases hf : BMap.find s1.processed info.slot with
              | none => exact absurd hf hin
              | some e => exact ⟨_, by simp only [BMap.find_insert, if_true]; rfl, by simp [(hp σ info .finalized (by simp)).1]⟩
            · obtain ⟨e, he1, he2⟩ := stream_linked ops (by omega) (parents_left hp) h1 hiF (l2 hii)
              refine ⟨e, ?_, he2⟩
              unfold noted
              rw [if_pos (by omega)]
              unfold ProcStore.updateSlotInfo
              split <;> rw [BMap.find_insert, if_neg (fun e => hii e.symm)] <;> exact he1
          obtain ⟨x, hx1, -, hcl⟩ := newestTrue_above hd hrec hkF hlinks hnew'
          obtain ⟨hxk, hrc⟩ := g1 x k hx1
          refine ⟨x.account, taken_left hcl, hxk, holding_of_look (s := s1) (slots := slots) fin' (hseen hnew hcl) (by rw [hxk]; exact hrc) ?_⟩
          intro p hxp
          rw [hxp] at hcl
          obtain ⟨rfl, ho⟩ := hdel hnew hcl
          obtain ⟨j1, j2, -⟩ := stream_only ops (by omega) (fun o ho' => ho o (by simp [ho'])) h1
          exact ⟨j1, .inl (by simp [recOf, j2])⟩
        · have hF0 : 0 < lastFinal ops := by
            by_contra h
            have : k = 0 := by omega
            subst this
            exact newest_submitted hnew' (submitted_zero (onTime_left ht) pk)
          have hnewF := newest_from hd (c1 hF0) hnew' (by omega)
          obtain ⟨x, hcl, hxk, hh⟩ := ih hF0 hnewF
          refine ⟨x, taken_left hcl, hxk, hframe hnew hcl hxk (g2 ?_).1 hh⟩
          intro y j hy
          have h5 := hlow y j hy
          obtain ⟨-, b, hb, -⟩ := newestOn_above hd hparn hrec h5 hy
          have := (newestTrue_unique hb hnew').2
          omega
    · have hmax := lastFinal_snoc_of (ops := ops) hf
      have hnew' := hnew
      rw [hmax] at hnew' h0
      obtain ⟨x, hcl, hxk, hh⟩ := ih h0 (hold hnew')
      refine ⟨x, taken_left hcl, hxk, hframe hnew hcl hxk ?_ hh⟩
      refine (step_frame inv (by omega) (fun e a ha => hw e o (by simp) a ha) hf ?_ h2).1
      intro b hb1 hb2 hb3
      have := hl ops o [] b rfl hb1 hb2 hb3
      omega

end LAM.Token
