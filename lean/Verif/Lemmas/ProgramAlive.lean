import Verif.Lemmas.Program
/-!
# The simulator program goes on
-/
namespace LAM.Token
open Spec Props ProcStore
open TokenStore (TOp)

/-- Every index belongs to a mint of `M`. -/
def AllOf (M : Pubkey → Prop) (T : MintTable) : Prop :=
  (∀ i, i < T.counter → ∃ pk, T.index.find pk = some i) ∧ ∀ pk i, T.index.find pk = some i → M pk

variable {M : Pubkey → Prop} {X : Codecs}

theorem allOf_empty : AllOf M TokenStore.empty.table := ⟨by simp [TokenStore.empty], by simp [TokenStore.empty]⟩

theorem allOf_getOrCreate {T : MintTable} (h : AllOf M T) {mint : Pubkey} (hm : M mint) : AllOf M (T.getOrCreate mint).2 := by
  unfold MintTable.getOrCreate
  split
  · exact h
  · rename_i hf
    constructor
    · intro i hi
      simp only at hi
      by_cases hl : i < T.counter
      · obtain ⟨pk, hpk⟩ := h.1 i hl
        refine ⟨pk, ?_⟩
        simp only [AMap.find_insert]
        rw [if_neg (by rintro rfl; rw [hf] at hpk; simp at hpk)]
        exact hpk
      · refine ⟨mint, ?_⟩
        have := Nat.mod_le (T.counter + 1) (2 ^ 32)
        simp only [wrap32] at hi
        simp only [AMap.find_insert, if_true, Option.some.injEq]
        omega
    · intro pk i hi
      simp only [AMap.find_insert] at hi
      split at hi
      · rename_i e; rw [← e]; exact hm
      · exact h.2 pk i hi

theorem allOf_classify {T T' : MintTable} (h : AllOf M T) {P : Pubkey → Pubkey → Pubkey → Prop} {a : AccountData}
    (ha : Respects X M P a) {x : Option ProgramAccount} (hc : classify X T a = .ok (x, T')) : AllOf M T' := by
  obtain ⟨⟨bs, hd, hm⟩, -⟩ := ha
  rcases classify_index hd hc with rfl | ⟨sa, hl, rfl⟩
  · exact h
  · exact allOf_getOrCreate h (hm sa hl).1

/-- Calls of loading: nothing is finalized by a notification, and what is stored at once is live, and a mint only if in `M`. -/
structure Loading (X : Codecs) (M : Pubkey → Prop) (o : TOp) : Prop where
  noSlot : ∀ σ i c, o ≠ .slot σ i c
  resp : ∀ a, submittedBy o = some a → Respects X M (fun _ _ _ => True) a
  live : ∀ a, AtOnce o → submittedBy o = some a → ¬ Closes a
  mints : ∀ a, AtOnce o → submittedBy o = some a → ∀ T T' m, classify X T a = .ok (some (.mint m), T') → M a.pubkey

theorem allOf_step {s s' : TokenStore} {o : TOp} (h : AllOf M s.table) (ho : Loading X M o) (hr : s.step X o = .ok s') :
    AllOf M s'.table := by
  have key : ∀ a c b, submittedBy o = some a → (c = .finalized → AtOnce o) → s.updateAccount X a c = .ok (b, s') → AllOf M s'.table := by
    intro a c b hs hat hu
    unfold TokenStore.updateAccount at hu
    simp only [Run.bind_eq_ok] at hu
    obtain ⟨isT, -, hu⟩ := hu
    split at hu
    · simp at hu; obtain ⟨-, rfl⟩ := hu; exact h
    · simp only [Run.bind_eq_ok] at hu
      obtain ⟨⟨r, T⟩, h1, hu⟩ := hu
      have hT := allOf_classify h (ho.resp a hs) h1
      cases r with
      | none => simp at hu; obtain ⟨-, rfl⟩ := hu; exact hT
      | some x =>
        simp only at hu
        split at hu
        · simp at hu; obtain ⟨-, rfl⟩ := hu; exact hT
        · rename_i hc
          simp only [Run.bind_eq_ok] at hu
          obtain ⟨s1, h2, hu⟩ := hu
          simp at hu; obtain ⟨-, rfl⟩ := hu
          have hf : c = .finalized := by cases c <;> simp_all
          cases x with
          | token t =>
            simp only [TokenStore.addFinalized, Run.bind_eq_ok] at h2
            obtain ⟨⟨⟨i, b⟩, tk⟩, -, h2⟩ := h2
            cases b <;> · simp at h2; subst h2; exact hT
          | multisig m p => simp only [TokenStore.addFinalized, Run.ok.injEq] at h2; subst h2; exact hT
          | mint m =>
            have hm : M m.pubkey := by
              have := (classify_some h1).1
              simp only [ProgramAccount.pubkey] at this
              rw [this]; exact ho.mints a (hat hf) hs _ _ m h1
            have h3 := allOf_getOrCreate hT hm
            simp only [TokenStore.addFinalized] at h2
            cases hi : T.index.find m.pubkey with
            | some i =>
              rw [hi] at h2
              simp only [Run.ok.injEq] at h2; subst h2; exact hT
            | none =>
              rw [hi] at h2
              simp only [Run.ok.injEq] at h2; subst h2
              simpa [MintTable.getOrCreate, hi] using h3
          | deleted p =>
            have hp := (classify_some h1).1
            simp only [ProgramAccount.pubkey] at hp
            subst hp
            exact absurd ((C46_deleted_iff X _ _ a _ h1).1 rfl) (ho.live a (hat hf) hs)
  cases o with
  | slot σ i c => exact absurd rfl (ho.noSlot σ i c)
  | update a c =>
    simp only [TokenStore.step, Run.bind_eq_ok] at hr
    obtain ⟨⟨b, s2⟩, h2, hr⟩ := hr
    simp at hr; subst hr
    exact key a c b rfl (fun h => h) h2
  | init a =>
    simp only [TokenStore.step, init_eq_update, Run.bind_eq_ok] at hr
    obtain ⟨⟨b, s2⟩, h2, hr⟩ := hr
    simp at hr; subst hr
    exact key a .finalized b rfl (fun _ => trivial) h2

theorem allOf_run (ops : List TOp) {s s' : TokenStore} (h : AllOf M s.table) (ho : ∀ o ∈ ops, Loading X M o)
    (hr : TokenStore.run X ops s = .ok s') : AllOf M s'.table := by
  induction ops generalizing s with
  | nil => simp [TokenStore.run] at hr; subst hr; exact h
  | cons o ops ih =>
    simp only [TokenStore.run, Run.bind_eq_ok] at hr
    obtain ⟨s1, h1, hr⟩ := hr
    exact ih (allOf_step h (ho o (by simp)) h1) (fun o h => ho o (by simp [h])) hr

/-- After loading, if every mint of `M` is known, notifications find the mints they need. -/
theorem loading_ready (ops : List TOp) {s : TokenStore} (hn : ops.length < 2 ^ 31) (ho : ∀ o ∈ ops, Loading X M o)
    (hr : TokenStore.run X ops .empty = .ok s) (hall : ∀ pk, M pk → KnownMint s pk) :
    ∃ ix slots orig, Ready M ix s ∧ Inv (Safe M ix (fun _ _ _ => True)) ops.length s slots orig := by
  have hA := allOf_run ops allOf_empty ho hr
  obtain ⟨slots, orig, inv⟩ := run_inv (X := X) ops (inv_empty (Deletes (fun p => ¬ M p))) (by simpa using hn) (by
    rintro o h a ha T x T' hcl p rfl hM
    rw [account_eq] at ha
    have hk := (classify_some hcl).1
    simp only [ProgramAccount.pubkey] at hk
    subst hk
    exact closed_not_mint ((ho o h).resp a ha) hM ((C46_deleted_iff X T T' a _ hcl).1 rfl)) hr
  rw [Nat.zero_add] at inv
  let ix : Pubkey → Nat := fun pk => (s.table.index.find pk).getD 0
  have hsafe : ∀ x, Deletes (fun p => ¬ M p) x → MintBelow s.table.counter x → Safe M ix (fun _ _ _ => True) x := by
    intro x h1 h2
    cases x with
    | token t =>
      obtain ⟨pk, hpk⟩ := hA.1 t.mint h2
      exact ⟨pk, hA.2 pk _ hpk, by simp [ix, hpk], trivial⟩
    | deleted p => exact h1 p rfl
    | mint m => trivial
    | multisig m p => trivial
  refine ⟨ix, slots, orig, ⟨?_, ?_⟩, ?_⟩
  · intro pk hM
    obtain ⟨i, m, h1, -⟩ := hall pk hM
    simp [ix, h1]
  · intro pk i hi
    obtain ⟨j, m, h1, h2⟩ := hall pk (hA.2 pk i hi)
    rw [hi] at h1; cases h1
    rw [h2]; simp
  · have h := inv.fin
    refine ⟨⟨h.holds, h.idx_lt, h.idx_inj, h.mints_idx, h.mints_distinct, h.multis, h.live, ?_, h.orig_len, ?_, h.orig_key, h.owner,
      h.mint, h.mint_only, h.last, h.multis_distinct,
      fun pk hno => h.linked pk (fun p hp hpp hd => hno p hp hpp (hd p rfl))⟩, ?_, inv.bound, inv.cbound⟩
    · intro t ht
      rcases h.slotsQ t ht with e | ⟨h1, h2, h3⟩
      · exact .inl e
      · exact .inr ⟨hsafe _ h1 h3, h2, h3⟩
    · intro t ht
      obtain ⟨h1, h2⟩ := h.origQ t ht
      exact ⟨hsafe _ h1 h2, h2⟩
    · exact inv.proc.mono (fun x hx => ⟨hx.1, hsafe x hx.2.1 hx.2.2, hx.2.2⟩)

theorem attempt_total {Q : ProgramAccount → Prop} {n : Nat} {s : TokenStore} {slots orig : List TokenAccount}
    (h : Inv Q n s slots orig) (hn : n < 2 ^ 31 - 1) (σ : Orders) (info : SlotInfo) (c : Commitment) :
    ∃ r, s.attemptSlot σ info c = .ok r := by
  cases c with
  | processed => exact ⟨_, rfl⟩
  | confirmed =>
    simp only [TokenStore.attemptSlot]
    split
    · exact ⟨_, rfl⟩
    · exact ⟨_, rfl⟩
    · rename_i hd; exact absurd hd (ends_getProcessedForSlot _ _ _)
  | finalized =>
    obtain ⟨P, l, -, ⟨-, -, ha, hadd⟩, -⟩ := finalized_start h hn info
    rw [ha]
    obtain ⟨s', hs'⟩ := hadd σ
    cases ht : toSolanaAll s.mints (σ.final l) with
    | ok notes => simp only [hs']; exact ⟨_, rfl⟩
    | panic => exact ⟨_, rfl⟩
    | diverge => exact absurd ht (toSolanaAll_ne_diverge _ _)

end LAM.Token

namespace LAM.Sim
open Spec Token AppendVec Props
open TokenStore (TOp)

variable {X : Codecs} {decode : Bytes → Option Manifest} {items : List Item} {ws : List (Nat × Written)}

theorem init_total {n : Nat} {s : TokenStore} {slots orig : List TokenAccount} (h : Inv (fun _ => True) n s slots orig)
    (hn : n < 2 ^ 31 - 1) (w : Written) : ∃ s', s.step X (.init w.submitted) = .ok s' := by
  obtain ⟨r, hr⟩ := update_total h hn (honest_submitted X w) .finalized
  exact ⟨r.2, by simp only [TokenStore.step, init_eq_update, hr]; rfl⟩

/-! ## The program serves -/

def isLoad : Event → Bool
  | .load => true
  | _ => false

theorem call_ends (σ : Orders) (m : Message) : messageCall X σ m ≠ .diverge := by
  cases m with
  | account pubkey lamports data compression owner executable rentEpoch slot writeVersion =>
    simp only [messageCall]
    cases compression with
    | none => simp [CompressionType.method, Data.new]
    | lz4Fast v => simp only [CompressionType.method, Data.new]; cases X.lz4c v data <;> simp [Run.unwrap]
    | lz4 v => simp only [CompressionType.method, Data.new]; cases X.lz4c v data <;> simp [Run.unwrap]
  | slot slot parent level => simp only [messageCall]; split <;> (try split) <;> simp
  | other => simp [messageCall]

theorem streamCall_total {n : Nat} {s : TokenStore} {slots orig : List TokenAccount} (h : Inv (fun _ => True) n s slots orig)
    (hn : n < 2 ^ 31 - 1) (o : TOp) : ∃ s' b slots' orig', streamCall X s o = .ok (s', b) ∧ Inv (fun _ => True) (n + 1) s' slots' orig' := by
  have hstep : (∀ σ i c, o ≠ .slot σ i c) → ∃ s' b slots' orig', (match s.step X o with
      | .ok s => Run.ok (s, true) | .panic => .ok (s, false) | .diverge => .diverge) = .ok (s', b) ∧
      Inv (fun _ => True) (n + 1) s' slots' orig' := by
    intro hno
    cases hr : s.step X o with
    | ok s1 =>
      obtain ⟨slots', orig', i⟩ := step_inv h hn (fun _ _ _ _ _ => trivial) hr
      exact ⟨s1, true, slots', orig', rfl, i⟩
    | panic => exact ⟨s, false, slots, orig, rfl, h.mono (by omega)⟩
    | diverge =>
      obtain ⟨-, -, h3, h4, -⟩ := C53_other_calls_end X s
      cases o with
      | slot σ i c => exact absurd rfl (hno σ i c)
      | update a c =>
        simp only [TokenStore.step] at hr
        cases hu : s.updateAccount X a c with
        | diverge => exact absurd hu (h3 a c)
        | _ => rw [hu] at hr; simp at hr
      | init a => exact absurd hr (h4 a)
  cases o with
  | slot σ info c =>
    obtain ⟨⟨s', r⟩, hr⟩ := attempt_total h hn σ info c
    obtain ⟨slots', orig', i⟩ := attempt_inv h hn hr
    exact ⟨s', r.isSome, slots', orig', by simp [streamCall, hr], i.mono (by omega)⟩
  | update a c => exact hstep (by simp)
  | init a => exact hstep (by simp)

/-- The program runs on whatever the stream does, and the loader gets on. -/
theorem main_total (evs : List Event) (url : Bool) (ha : WellFormedArchive decode items ws) (hn : evs.length < 2 ^ 31) :
    ∃ w rest n m slots orig, (Main.start url items).run X decode evs = .ok w ∧ Left decode w.loader rest n ∧
      Inv (fun _ => True) m w.store slots orig ∧ m ≤ evs.length ∧
      (w.serves ∨ n + evs.countP isLoad ≤ items.length + ws.length + 2) := by
  induction evs using List.reverseRecOn with
  | nil =>
    exact ⟨_, _, _, 0, [], [], rfl, .opening ha, inv_empty _, Nat.le_refl _, .inr (by simp)⟩
  | append_singleton evs e ih =>
    simp only [List.length_append, List.length_cons, List.length_nil] at hn
    obtain ⟨w, rest, n, m, slots, orig, h1, h2, h3, h4, h5⟩ := ih (by omega)
    have hcount : ∀ e : Event, e ≠ .load → (evs ++ [e]).countP isLoad = evs.countP isLoad := by
      intro e he; cases e <;> simp_all [isLoad, List.countP_append]
    cases e with
    | load =>
      have hc : (evs ++ [Event.load]).countP isLoad = evs.countP isLoad + 1 := by simp [isLoad, List.countP_append]
      rcases left_step (X := X) h2 w.store with ⟨g1, g2⟩ | ⟨l2, n2, g1, g2, gn, ws', g3, g4⟩ | ⟨l2, n2, v, ws', g1, rfl, g3, g4, gn, g5⟩
      · exact ⟨_, rest, n, m, slots, orig, main_snoc.2 ⟨w, h1, by simp only [Main.step, g2]; rfl⟩, h2, h3, by simp; omega, .inl g1⟩
      · refine ⟨{ w with loader := l2 }, ws', n2, m, slots, orig, main_snoc.2 ⟨w, h1, by simp only [Main.step, g2]; rfl⟩, g3, h3, by simp; omega, ?_⟩
        rcases h5 with h5 | h5
        · exact absurd h5 g1
        · right; omega
      · obtain ⟨s', hs'⟩ := init_total (X := X) h3 (by omega) v
        obtain ⟨slots', orig', i⟩ := step_inv h3 (by omega) (fun _ _ _ _ _ => trivial) hs'
        refine ⟨{ w with loader := l2, store := s' }, ws', n2, m + 1, slots', orig', main_snoc.2 ⟨w, h1, by simp only [Main.step, g5, hs']; rfl⟩, g4, i, by simp; omega, ?_⟩
        rcases h5 with h5 | h5
        · exact absurd h5 g1
        · right; omega
    | hangUp =>
      refine ⟨_, rest, n, m, slots, orig, main_snoc.2 ⟨w, h1, rfl⟩, h2, h3, by simp; omega, ?_⟩
      rw [hcount _ (by simp)]; exact h5
    | message σ msg =>
      rw [hcount _ (by simp)]
      by_cases hl : w.listening = true
      · cases hm : messageCall X σ msg with
        | diverge => exact absurd hm (call_ends σ msg)
        | panic =>
          exact ⟨{ w with listening := false }, rest, n, m, slots, orig, main_snoc.2 ⟨w, h1, by simp only [Main.step, hl, if_true, hm]⟩, h2, h3, by simp; omega, h5⟩
        | ok o =>
          cases o with
          | none => exact ⟨_, rest, n, m, slots, orig, main_snoc.2 ⟨w, h1, by simp only [Main.step, hl, if_true, hm]⟩, h2, h3, by simp; omega, h5⟩
          | some o =>
            obtain ⟨s', b, slots', orig', hs', i⟩ := streamCall_total (X := X) h3 (by omega) o
            exact ⟨{ w with store := s', listening := b }, rest, n, m + 1, slots', orig',
              main_snoc.2 ⟨w, h1, by simp only [Main.step, hl, if_true, hm, hs']; rfl⟩, h2, i, by simp; omega, h5⟩
      · exact ⟨w, rest, n, m, slots, orig, main_snoc.2 ⟨w, h1, by simp only [Main.step, hl]; rfl⟩, h2, h3, by simp; omega, h5⟩

/-! ## The stream is followed -/

theorem respects_streamed {evs : List Event} {e : Event} (h : StreamRespects X ws (evs ++ [e])) : StreamRespects X ws evs :=
  fun a c hm => h a c (by rw [streamed_snoc]; simp [hm])

/-- When the archive was loaded before the first notification, every mint of the archive has its account. -/
theorem feed_ready {evs : List Event} {A B : List TOp} {s : TokenStore} (hc : Consistent (tokenOwned (ws.map (·.2))))
    (hs : StreamRespects X ws evs) (hi : Interleaved (archived ws) (streamed evs) (A ++ B)) (hn : A.length + B.length < 2 ^ 31)
    (hr : TokenStore.run X (A ++ B) .empty = .ok s) (i8 : ∀ o ∈ A, ∀ σ i c, o ≠ TOp.slot σ i c) (i9 : ∀ o ∈ B, ofStream o = true) :
    ∃ ix slots orig, Ready (ArchiveMint ws) ix s ∧ Inv (Safe (ArchiveMint ws) ix (fun _ _ _ => True)) (A.length + B.length) s slots orig := by
  have hresp : ∀ o ∈ A ++ B, ∀ a, submittedBy o = some a → Respects X (ArchiveMint ws) (fun _ _ _ => True) a :=
    fun o ho a h => feed_respects hc hs hi ho h
  obtain ⟨sA, hA, hB⟩ := (storeRun_append _ _).1 hr
  have hinit : ∀ v ∈ tokenOwned (ws.map (·.2)), TOp.init v.submitted ∈ A := by
    intro v hv
    have : TOp.init v.submitted ∈ A ++ B := (interleaved_mem hi _).2 (.inl (by simp only [archived, List.mem_map]; exact ⟨v, hv, rfl⟩))
    rcases List.mem_append.1 this with h | h
    · exact h
    · have := i9 _ h; simp [ofStream] at this
  obtain ⟨ix, slotsA, origA, hrdy, invA⟩ := loading_ready (X := X) (M := ArchiveMint ws) A (by omega) (by
    intro o ho
    have hor := (interleaved_mem hi o).1 (List.mem_append_left _ ho)
    refine ⟨i8 o ho, hresp o (List.mem_append_left _ ho), ?_, ?_⟩
    · intro a h1 h2
      rcases hor with h | h
      · obtain ⟨v, hv, rfl⟩ := archived_kind h
        cases h2
        exact owned_not_deleted (owned_of hc hv)
      · rcases streamed_kind h with ⟨b, rfl, -⟩ | ⟨σ, info, c, rfl, -⟩
        · simp [AtOnce] at h1
        · cases h2
    · intro a h1 h2 T T' m hcl
      rcases hor with h | h
      · obtain ⟨v, hv, rfl⟩ := archived_kind h
        cases h2
        obtain ⟨-, -, sm, hsm, -⟩ := (C46_mint_iff X T _ _ _ (owned_of hc hv) (honest_submitted X v) m).1 ⟨T', hcl⟩
        exact ⟨v, hv, rfl, sm, hsm⟩
      · rcases streamed_kind h with ⟨b, rfl, -⟩ | ⟨σ, info, c, rfl, -⟩
        · simp [AtOnce] at h1
        · cases h2) hA (by
    intro pk hM
    have hM' := hM
    obtain ⟨v, hv, rfl, sm, hsm⟩ := hM
    exact mint_known (fun o ho a h => hresp o (List.mem_append_left _ ho) a h) (by omega) hA (a := v.submitted) hM' (hinit v hv)
      (owned_of hc hv) (honest_submitted X v) hsm)
  obtain ⟨sB, slotsB, origB, hB', hrdyB, invB⟩ := run_ready B invA (by omega) hrdy
    (fun o ho a h => hresp o (List.mem_append_right _ ho) a (by rw [← account_eq]; exact h))
  rw [hB] at hB'; cases hB'
  exact ⟨ix, slotsB, origB, hrdyB, invB⟩

theorem main_alive (evs : List Event) (ha : WellFormedArchive decode items ws) (hc : Consistent (tokenOwned (ws.map (·.2))))
    (hp : Plain evs) (hs : StreamRespects X ws evs) (hh : Event.hangUp ∉ evs) (hn : evs.length < 2 ^ 31)
    (hf : LoadsFirst X decode true evs (Main.start true items)) :
    ∃ w before rest n A B, (Main.start true items).run X decode evs = .ok w ∧ w.listening = true ∧ Left decode w.loader rest n ∧
      tokenOwned (ws.map (·.2)) = before ++ tokenOwned rest ∧
      Interleaved (before.map (fun w => TOp.init w.submitted)) (streamed evs) (A ++ B) ∧ (A ++ B).length ≤ evs.length ∧
      TokenStore.run X (A ++ B) .empty = .ok w.store ∧ (∀ o ∈ A, ∀ σ i c, o ≠ .slot σ i c) ∧ (∀ o ∈ B, ofStream o = true) ∧
      (¬ w.serves → B = []) := by
  induction evs using List.reverseRecOn with
  | nil => exact ⟨_, [], _, _, [], [], rfl, rfl, .opening ha, rfl, .nil, by simp, rfl, by simp, by simp, fun _ => rfl⟩
  | append_singleton evs e ih =>
    simp only [List.length_append, List.length_cons, List.length_nil] at hn
    obtain ⟨w, before, rest, n, A, B, i1, i2, i3, i4, i5, i6, i7, i8, i9, i10⟩ := ih (plain_left hp) (respects_streamed hs)
      (fun h => hh (by simp [h])) (by omega) (loadsFirst_left hf)
    obtain ⟨slots, orig, inv⟩ := reach_inv (by omega) i7
    simp only [List.length_append] at i6 inv
    cases e with
    | hangUp => simp at hh
    | load =>
      have est : streamed (evs ++ [.load]) = streamed evs := by rw [streamed_snoc]; simp
      rw [est]
      rcases left_step (X := X) i3 w.store with ⟨g1, g2⟩ | ⟨l2, n2, g1, g2, gn, ws', g3, g4⟩ | ⟨l2, n2, v, ws', g1, rfl, g3, g4, gn, g5⟩
      · exact ⟨_, before, rest, n, A, B, main_snoc.2 ⟨w, i1, by simp only [Main.step, g2]; rfl⟩, i2, i3, i4, i5, by simp; omega, i7, i8, i9,
          fun h => absurd g1 h⟩
      · exact ⟨{ w with loader := l2 }, before, ws', n2, A, B, main_snoc.2 ⟨w, i1, by simp only [Main.step, g2]; rfl⟩, i2, g3, by rw [g4]; exact i4, i5, by simp; omega,
          i7, i8, i9, fun _ => i10 g1⟩
      · obtain rfl := i10 g1
        obtain ⟨s', hs'⟩ := init_total (X := X) inv (by omega) v
        have hmap : (before ++ [v]).map (fun w => TOp.init w.submitted) = before.map (fun w => TOp.init w.submitted) ++ [TOp.init v.submitted] := by simp
        simp only [List.append_nil] at i5 i7
        refine ⟨{ w with loader := l2, store := s' }, before ++ [v], ws', n2, A ++ [.init v.submitted], [], main_snoc.2 ⟨w, i1, by simp only [Main.step, g5, hs']; rfl⟩, i2, g4,
          by rw [i4]; simp [tokenOwned, g3], ?_, by simp at i6 ⊢; omega, ?_, ?_, by simp, fun _ => rfl⟩
        · rw [hmap, List.append_nil]; exact interleaved_snoc_left i5 _
        · rw [List.append_nil]; exact run_snoc_ok i7 hs'
        · intro o ho
          simp only [List.mem_append, List.mem_singleton] at ho
          rcases ho with ho | rfl
          · exact i8 o ho
          · simp
    | message σ m =>
      have hcall := call_plain (X := X) (σ := σ) (m := m) (by
        rintro p l d c o x r s v rfl
        exact hp σ p l d c o x r s v (by simp))
      cases ho : reported σ m with
      | none =>
        have est : streamed (evs ++ [.message σ m]) = streamed evs := by rw [streamed_snoc]; simp [ho]
        rw [est]
        exact ⟨w, before, rest, n, A, B, main_snoc.2 ⟨w, i1, by simp only [Main.step, i2, if_true, hcall, ho]⟩, i2, i3, i4, i5, by simp; omega,
          i7, i8, i9, i10⟩
      | some o =>
        have est : streamed (evs ++ [.message σ m]) = streamed evs ++ [o] := by rw [streamed_snoc]; simp [ho]
        have hmem : o ∈ streamed (evs ++ [.message σ m]) := by rw [est]; simp
        -- the call returns
        have hgo : ∀ s', w.store.step X o = .ok s' →
            (Main.start true items).run X decode (evs ++ [.message σ m]) = .ok { w with store := s' } := by
          intro s' h
          refine main_snoc.2 ⟨w, i1, ?_⟩
          have e1 := streamCall_slot.2 h
          simp only [Main.step, i2, if_true, hcall, ho, e1]
          simp
        rcases streamed_kind hmem with ⟨a, rfl, -⟩ | ⟨σ', info, c, rfl, hcc⟩
        · obtain ⟨⟨bs, hd, -⟩, -⟩ := hs a _ hmem
          obtain ⟨r, hr⟩ := update_total inv (by omega) hd .processed
          have hst : w.store.step X (.update a .processed) = .ok r.2 := by simp only [TokenStore.step, hr]; rfl
          rw [est]
          by_cases hw : w.serves
          · refine ⟨_, before, rest, n, A, B ++ [.update a .processed], hgo _ hst, i2, i3, i4, ?_, by simp; omega, ?_, i8, ?_, fun h => absurd hw h⟩
            · rw [← List.append_assoc]; exact interleaved_snoc_right i5 _
            · rw [← List.append_assoc]; exact run_snoc_ok i7 hst
            · intro o ho
              simp only [List.mem_append, List.mem_singleton] at ho
              rcases ho with ho | rfl
              · exact i9 o ho
              · rfl
          · obtain rfl := i10 hw
            simp only [List.append_nil] at i5 i7
            refine ⟨_, before, rest, n, A ++ [.update a .processed], [], hgo _ hst, i2, i3, i4, ?_, by simp at i6 ⊢; omega, ?_, ?_, by simp, fun _ => rfl⟩
            · rw [List.append_nil]; exact interleaved_snoc_right i5 _
            · rw [List.append_nil]; exact run_snoc_ok i7 hst
            · intro o ho
              simp only [List.mem_append, List.mem_singleton] at ho
              rcases ho with ho | rfl
              · exact i8 o ho
              · simp
        · -- a notification: the archive has been loaded
          have hw : w.serves := by
            cases m with
            | slot slot parent level =>
              cases level with
              | confirmed =>
                obtain ⟨w2, e1, e2⟩ := hf evs σ slot parent .confirmed [] rfl (.inr ⟨rfl, rfl⟩)
                rw [i1] at e1; cases e1; exact e2
              | finalized =>
                obtain ⟨w2, e1, e2⟩ := hf evs σ slot parent .finalized [] rfl (.inl rfl)
                rw [i1] at e1; cases e1; exact e2
              | _ => simp [reported] at ho
            | account => simp [reported] at ho
            | other => simp [reported] at ho
          have hrest := (not_done_of_left i3).1 hw
          subst hrest
          have hall : before = tokenOwned (ws.map (·.2)) := by rw [i4]; simp [tokenOwned]
          have hi : Interleaved (archived ws) (streamed evs) (A ++ B) := by rw [archived, ← hall]; exact i5
          obtain ⟨ix, slotsB, origB, hrdyB, invB⟩ := feed_ready hc (respects_streamed hs) hi (by omega) i7 i8 i9
          obtain ⟨s', -, -, hst, -, -⟩ := step_ready (X := X) (o := .slot σ' info c) invB (by omega) hrdyB (by intro a h; simp [account_eq, submittedBy] at h)
          rw [est]
          refine ⟨_, before, [], n, A, B ++ [.slot σ' info c], hgo _ hst, i2, i3, i4, ?_, by simp; omega, ?_, i8, ?_, fun h => absurd hw h⟩
          · rw [← List.append_assoc]; exact interleaved_snoc_right i5 _
          · rw [← List.append_assoc]; exact run_snoc_ok i7 hst
          · intro o ho
            simp only [List.mem_append, List.mem_singleton] at ho
            rcases ho with ho | rfl
            · exact i9 o ho
            · rfl

/-! ## Every interleaving occurs -/

/-- The event is not a turn of the loader. -/
def notLoad : Event → Bool
  | .load => false
  | _ => true

/-- The loader gets to its next submission, or to its end. -/
theorem reach_any {m : Nat} : ∀ {evs : List Event} {ops : List TOp} {w : Main} {rest : List Written} {n : Nat} {s : TokenStore},
    n + evs.length ≤ m → Left decode w.loader rest n → w.listening = true → Plain evs → (∀ e ∈ evs, ∃ σ msg, e = .message σ msg) →
    Interleaved ((tokenOwned rest).map (fun w => TOp.init w.submitted)) (streamed evs) ops → TokenStore.run X ops w.store = .ok s →
    ∃ evs' w', evs'.filter notLoad = evs ∧ w.run X decode evs' = .ok w' ∧ w'.serves ∧ w'.listening = true ∧ w'.store = s := by
  induction m with
  | zero =>
    intro evs ops w rest n s hm hleft hl hp hev hi hr
    obtain rfl : n = 0 := by omega
    obtain rfl : evs = [] := by rw [← List.length_eq_zero_iff]; omega
    rcases left_step (X := X) hleft w.store with ⟨g1, -⟩ | ⟨_, _, _, _, gn, -⟩ | ⟨_, _, _, _, _, _, _, _, gn, -⟩
    · have := (not_done_of_left hleft).1 g1
      subst this
      cases hi
      simp [TokenStore.run] at hr
      exact ⟨[], w, rfl, rfl, g1, hl, hr⟩
    · omega
    · omega
  | succ m ih =>
    intro evs ops w rest n s hm hleft hl hp hev hi hr
    -- a turn of the loader comes next
    have hload : (∀ v ws', rest = v :: ws' → v.owner = Spl.tokenId → ∃ ops', ops = .init v.submitted :: ops' ∧
        Interleaved ((tokenOwned ws').map (fun w => TOp.init w.submitted)) (streamed evs) ops') → (w.loader = .done → evs = []) →
        ∃ evs' w', evs'.filter notLoad = evs ∧ w.run X decode evs' = .ok w' ∧ w'.serves ∧ w'.listening = true ∧ w'.store = s := by
      intro hnext hdone
      rcases left_step (X := X) hleft w.store with ⟨g1, -⟩ | ⟨l2, n2, g1, g2, gn, ws', g3, g4⟩ | ⟨l2, n2, v, ws', g1, rfl, g3, g4, gn, g5⟩
      · have := (not_done_of_left hleft).1 g1
        subst this
        obtain rfl := hdone g1
        cases hi
        simp [TokenStore.run] at hr
        exact ⟨[], w, rfl, rfl, g1, hl, hr⟩
      · obtain ⟨evs', w', e1, e2, e3⟩ := ih (w := { w with loader := l2 }) (n := n2) (by omega) g3 hl hp hev (by rw [g4]; exact hi) hr
        refine ⟨.load :: evs', w', by simpa [notLoad] using e1, ?_, e3⟩
        simp only [Main.run, Main.step, g2, Run.ok_bind, Run.pure_eq]
        exact e2
      · obtain ⟨ops', rfl, hi'⟩ := hnext v ws' rfl g3
        simp only [TokenStore.run, Run.bind_eq_ok] at hr
        obtain ⟨s1, h1, hr⟩ := hr
        obtain ⟨evs', w', e1, e2, e3⟩ := ih (w := { w with loader := l2, store := s1 }) (n := n2) (by omega) g4 hl hp hev hi' hr
        refine ⟨.load :: evs', w', by simpa [notLoad] using e1, ?_, e3⟩
        simp only [Main.run, Main.step, g5, h1, Run.ok_bind, Run.pure_eq]
        exact e2
    cases evs with
    | nil =>
      refine hload ?_ (fun _ => rfl)
      rintro v ws' rfl hv
      have e : tokenOwned (v :: ws') = v :: tokenOwned ws' := by simp [tokenOwned, hv]
      rw [e] at hi
      cases hi with
      | left hi => exact ⟨_, rfl, hi⟩
    | cons e evs =>
      obtain ⟨σ, msg, rfl⟩ := hev e (by simp)
      have hcall := call_plain (X := X) (σ := σ) (m := msg) (by
        rintro p l d c o x r s v rfl
        exact hp σ p l d c o x r s v (by simp))
      have hp' : Plain evs := fun σ p l d c o x r s v h => hp σ p l d c o x r s v (by simp [h])
      have hev' : ∀ e ∈ evs, ∃ σ msg, e = .message σ msg := fun e h => hev e (by simp [h])
      have hlen : n + evs.length ≤ m := by simp at hm; omega
      cases ho : reported σ msg with
      | none =>
        have est : streamed (.message σ msg :: evs) = streamed evs := by simp [streamed, ho]
        rw [est] at hi
        obtain ⟨evs', w', e1, e2, e3⟩ := ih hlen hleft hl hp' hev' hi hr
        refine ⟨.message σ msg :: evs', w', by rw [List.filter_cons_of_pos rfl, e1], ?_, e3⟩
        simp only [Main.run, Main.step, hl, if_true, hcall, ho, Run.ok_bind]
        exact e2
      | some o =>
        have est : streamed (.message σ msg :: evs) = o :: streamed evs := by simp [streamed, ho]
        -- the message comes next
        have hmsg : ∀ ops', ops = o :: ops' → Interleaved ((tokenOwned rest).map (fun w => TOp.init w.submitted)) (streamed evs) ops' →
            ∃ evs' w', evs'.filter notLoad = .message σ msg :: evs ∧ w.run X decode evs' = .ok w' ∧ w'.serves ∧ w'.listening = true ∧
              w'.store = s := by
          rintro ops' rfl hi'
          simp only [TokenStore.run, Run.bind_eq_ok] at hr
          obtain ⟨s1, h1, hr⟩ := hr
          obtain ⟨evs', w', e1, e2, e3⟩ := ih (w := { w with store := s1 }) hlen hleft hl hp' hev' hi' hr
          refine ⟨.message σ msg :: evs', w', by rw [List.filter_cons_of_pos rfl, e1], ?_, e3⟩
          have e4 := streamCall_slot.2 h1
          simp only [Main.run, Main.step, hl, if_true, hcall, ho, e4, Run.ok_bind, Run.pure_eq]
          rw [← hl]; exact e2
        have hi0 := hi
        rw [est] at hi
        generalize ha : (tokenOwned rest).map (fun w => TOp.init w.submitted) = al at hi
        generalize hb : o :: streamed evs = bl at hi
        cases hi with
        | nil => simp at hb
        | right hi => cases hb; exact hmsg _ rfl (by rw [ha]; exact hi)
        | @left x a b l hi =>
          refine hload ?_ ?_
          · rintro v ws' rfl hv
            have e : tokenOwned (v :: ws') = v :: tokenOwned ws' := by simp [tokenOwned, hv]
            rw [e, List.map_cons] at ha
            cases ha
            exact ⟨_, rfl, by rw [est, hb]; exact hi⟩
          · intro hd
            have := (not_done_of_left hleft).1 hd
            subst this
            simp [tokenOwned] at ha

/-! ## Without a stream -/

/-- What the loader still does. -/
def finish (X : Codecs) (decode : Bytes → Option Manifest) : Loader → TokenStore → Run TokenStore
  | .opening items, s => loadArchive X decode items s
  | .reading accounts vecs, s => do loadVecs X vecs (← loadAccounts X accounts s)
  | .done, s => .ok s

theorem finish_step (l : Loader) (s : TokenStore) :
    finish X decode l s = (do let (l', s') ← loadStep X decode l s; finish X decode l' s') := by
  cases l with
  | opening items =>
    simp only [finish, loadStep, loadArchive]
    cases fromReader decode items with
    | error e => rfl
    | ok r => simp [loadAccounts]
  | reading accounts vecs =>
    cases accounts with
    | nil =>
      cases vecs with
      | nil => simp [finish, loadStep, loadAccounts, loadVecs]
      | cons v vecs =>
        cases v with
        | error e => simp [finish, loadStep, loadAccounts, loadVecs]
        | ok v =>
          simp only [finish, loadStep, loadAccounts, loadVecs, Run.ok_bind]
          cases iterate v (v.currentLen / 136 + 1) 0 <;> simp
    | cons a accounts =>
      simp only [finish, loadStep, loadAccounts]
      split
      · simp
      · cases s.initAccount X (snapshotAccount a) <;> simp
  | done => simp [finish, loadStep]

theorem finish_run (evs : List Event) {w w' : Main} (hl : w.listening = false) (hr : w.run X decode evs = .ok w') :
    finish X decode w.loader w.store = finish X decode w'.loader w'.store := by
  induction evs generalizing w with
  | nil => simp [Main.run] at hr; subst hr; rfl
  | cons e evs ih =>
    simp only [Main.run, Run.bind_eq_ok] at hr
    obtain ⟨w1, h1, hr⟩ := hr
    cases e with
    | load =>
      simp only [Main.step, Run.bind_eq_ok, Prod.exists] at h1
      obtain ⟨l, s, h1, h2⟩ := h1
      simp at h2; subst h2
      rw [finish_step, h1]
      exact ih (w := { w with loader := l, store := s }) hl hr
    | message σ m =>
      simp [Main.step, hl] at h1; subst h1
      exact ih hl hr
    | hangUp =>
      simp [Main.step] at h1; subst h1
      exact ih (w := { w with listening := false }) rfl hr

/-! ## Archives that cannot be loaded -/

/-- The loader will meet an error. -/
def Doomed (decode : Bytes → Option Manifest) : Loader → Prop
  | .opening items => ∀ m rest, fromReader decode items = .ok (m, rest) → ∃ e, .error e ∈ archiveIter m rest
  | .reading _ vecs => ∃ e, .error e ∈ vecs
  | .done => False

theorem doomed_load {l l' : Loader} {s s' : TokenStore} (h : Doomed decode l) (hr : loadStep X decode l s = .ok (l', s')) :
    Doomed decode l' := by
  cases l with
  | opening items =>
    simp only [loadStep] at hr
    split at hr
    · simp at hr
    · rename_i m rest e
      simp at hr; obtain ⟨rfl, rfl⟩ := hr
      exact h m rest e
  | reading accounts vecs =>
    obtain ⟨e, he⟩ := h
    cases accounts with
    | nil =>
      cases vecs with
      | nil => simp at he
      | cons v vecs =>
        cases v with
        | error e => simp [loadStep] at hr
        | ok v =>
          simp only [loadStep, Run.bind_eq_ok] at hr
          obtain ⟨_, -, hr⟩ := hr
          simp at hr; obtain ⟨rfl, rfl⟩ := hr
          exact ⟨e, by simpa using he⟩
    | cons a accounts =>
      simp only [loadStep] at hr
      split at hr
      · simp at hr; obtain ⟨rfl, rfl⟩ := hr; exact ⟨e, he⟩
      · simp only [Run.bind_eq_ok] at hr
        obtain ⟨_, -, hr⟩ := hr
        simp at hr; obtain ⟨rfl, rfl⟩ := hr; exact ⟨e, he⟩
  | done => exact h.elim

theorem doomed_run (evs : List Event) {w w' : Main} (h : Doomed decode w.loader) (hr : w.run X decode evs = .ok w') :
    Doomed decode w'.loader := by
  induction evs generalizing w with
  | nil => simp [Main.run] at hr; subst hr; exact h
  | cons e evs ih =>
    simp only [Main.run, Run.bind_eq_ok] at hr
    obtain ⟨w1, h1, hr⟩ := hr
    refine ih ?_ hr
    cases e with
    | load =>
      simp only [Main.step, Run.bind_eq_ok, Prod.exists] at h1
      obtain ⟨l, s, h1, h2⟩ := h1
      simp at h2; subst h2
      exact doomed_load h h1
    | message σ m =>
      simp only [Main.step] at h1
      split at h1
      · split at h1
        · simp at h1; subst h1; exact h
        · simp only [Run.bind_eq_ok, Prod.exists] at h1
          obtain ⟨_, _, -, h1⟩ := h1
          simp at h1; subst h1; exact h
        · simp at h1; subst h1; exact h
        · simp at h1
      · simp at h1; subst h1; exact h
    | hangUp => simp [Main.step] at h1; subst h1; exact h

end LAM.Sim
