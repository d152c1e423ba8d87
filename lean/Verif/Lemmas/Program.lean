import Verif.Lemmas.ProgramFeed
import Verif.Props.TokenLoss
/-!
# Runs of the simulator program
-/
namespace LAM.Sim
open Spec Token AppendVec
open TokenStore (TOp)

theorem main_append (X : Codecs) (decode : Bytes → Option Manifest) (l l' : List Event) (w : Main) :
    w.run X decode (l ++ l') = (do Main.run X decode l' (← w.run X decode l)) := by
  induction l generalizing w with
  | nil => rfl
  | cons e l ih =>
    simp only [List.cons_append, Main.run]
    cases w.step X decode e <;> simp [ih]

theorem main_snoc {X : Codecs} {decode : Bytes → Option Manifest} {l : List Event} {e : Event} {w w' : Main} :
    w.run X decode (l ++ [e]) = .ok w' ↔ ∃ w1, w.run X decode l = .ok w1 ∧ w1.step X decode e = .ok w' := by
  rw [main_append]
  cases w.run X decode l with
  | ok w1 =>
    simp only [Run.ok_bind, Main.run, Run.ok.injEq, exists_eq_left']
    cases w1.step X decode e <;> simp
  | panic => simp
  | diverge => simp

/-- Accounts read from an append vec, and what they are. -/
def Holds (v : AppendVec) (ws : List Written) : Prop :=
  ∃ l, iterate v (v.currentLen / 136 + 1) 0 = .ok l ∧ l.map asWritten = ws.map some

/-- The append vecs hold these accounts. -/
inductive VecsHold : List (Except SnapshotError AppendVec) → List Written → Prop where
  | nil : VecsHold [] []
  | cons {v vs ws ws'} : Holds v ws → VecsHold vs ws' → VecsHold (.ok v :: vs) (ws ++ ws')

theorem vecsHold_of {m : Manifest} {items : List Item} {ws : List (Nat × Written)} (h : Contains m items ws) :
    VecsHold (archiveIter m items) (ws.map (·.2)) ∧ (archiveIter m items).length ≤ items.length := by
  induction h with
  | nil => exact ⟨.nil, by simp [archiveIter]⟩
  | other hp h ih =>
    rw [archiveIter, List.filterMap_cons]
    simp only [(pathName_none _).2 hp, Option.map_none]
    exact ⟨ih.1, Nat.le_trans ih.2 (by simp)⟩
  | @file path slot id len content items ws ws' hp hd hc hl hw h ih =>
    rw [archiveIter, List.filterMap_cons]
    simp only [(pathName_iff _ (slot, id)).2 hp, Option.map_some, processEntry, (knownLen_iff _ _ _ _).2 hd, List.map_append,
      List.map_map]
    obtain ⟨l, h1, h2⟩ := reader_layout (slot := slot) hc hl hw
    have e : List.map ((fun x => x.2) ∘ fun w => (slot, w)) ws = ws := by simp [Function.comp_def]
    rw [e]
    refine ⟨.cons ⟨l, h1, h2⟩ ih.1, ?_⟩
    have : (archiveIter m items).length ≤ items.length := ih.2
    rw [archiveIter] at this
    simp only [List.length_cons]
    exact Nat.succ_le_succ this

/-- What is left to be loaded (of all owners), and how many turns that takes. -/
inductive Left (decode : Bytes → Option Manifest) : Loader → List Written → Nat → Prop where
  | opening {items ws} : WellFormedArchive decode items ws →
      Left decode (.opening items) (ws.map (·.2)) (items.length + ws.length + 2)
  | reading {accounts us vecs ws} : accounts.map asWritten = us.map some → VecsHold vecs ws →
      Left decode (.reading accounts vecs) (us ++ ws) (vecs.length + us.length + ws.length + 1)
  | done : Left decode .done [] 0

/-- One turn of the loader. -/
theorem left_step {X : Codecs} {decode : Bytes → Option Manifest} {l : Loader} {ws : List Written} {n : Nat} (h : Left decode l ws n)
    (s : TokenStore) :
    (l = .done ∧ loadStep X decode l s = .ok (l, s)) ∨
    (∃ l' n', l ≠ .done ∧ loadStep X decode l s = .ok (l', s) ∧ n' < n ∧
      ∃ ws', Left decode l' ws' n' ∧ tokenOwned ws' = tokenOwned ws) ∨
    ∃ l' n' w ws', l ≠ .done ∧ ws = w :: ws' ∧ w.owner = Spl.tokenId ∧ Left decode l' ws' n' ∧ n' < n ∧
      loadStep X decode l s = (do return (l', ← s.step X (.init w.submitted))) := by
  cases h with
  | @opening items ws hw =>
    obtain ⟨pre, path, content, m, post, rfl, h1, h2, h3, h4⟩ := hw
    have hm : isManifestFile path = true := (isManifest_iff path).2 h2
    obtain ⟨g1, g2⟩ := vecsHold_of h4
    refine .inr (.inl ⟨.reading [] (archiveIter m post), _, by simp, ?_, ?_, _, Left.reading (us := []) rfl g1, rfl⟩)
    · simp only [loadStep]
      rw [fromReader_skip decode pre _ h1]
      simp [fromReader, hm, h3]
    · simp only [List.length_nil, List.length_append, List.length_cons, List.length_map]; omega
  | @reading accounts us vecs ws h1 h2 =>
    cases accounts with
    | nil =>
      obtain rfl : us = [] := by cases us <;> simp_all
      cases h2 with
      | nil => exact .inr (.inl ⟨.done, 0, by simp, rfl, by simp, [], .done, rfl⟩)
      | @cons v vs ws ws' hv h2 =>
        obtain ⟨l, e1, e2⟩ := hv
        refine .inr (.inl ⟨.reading l vs, _, by simp, ?_, ?_, _, Left.reading e2 h2, by simp⟩)
        · simp [loadStep, e1]
        · simp only [List.length_cons, List.length_append, List.length_nil]; omega
    | cons a l =>
      cases us with
      | nil => simp at h1
      | cons w us =>
        simp only [List.map_cons, List.cons.injEq] at h1
        obtain ⟨ho, hs⟩ := submitted_of h1.1
        by_cases hw : w.owner = Spl.tokenId
        · refine .inr (.inr ⟨.reading l vecs, _, w, us ++ ws, by simp, rfl, hw, Left.reading h1.2 h2, ?_, ?_⟩)
          · simp only [List.length_cons]; omega
          · simp only [loadStep, ho, hw, ne_eq, not_true_eq_false, if_false, TokenStore.step, hs]
        · refine .inr (.inl ⟨.reading l vecs, _, by simp, ?_, ?_, us ++ ws, Left.reading h1.2 h2, ?_⟩)
          · simp [loadStep, ho, hw]
          · simp only [List.length_cons]; omega
          · simp [tokenOwned, hw]
  | done => exact .inl ⟨rfl, rfl⟩

theorem not_done_of_left {decode : Bytes → Option Manifest} {l : Loader} {ws : List Written} {n : Nat} (h : Left decode l ws n) :
    (l = .done → ws = []) ∧ (n = 0 → l = .done) := by
  cases h with
  | opening h => exact ⟨by simp, by omega⟩
  | reading h1 h2 => exact ⟨by simp, by omega⟩
  | done => exact ⟨fun _ => rfl, fun _ => rfl⟩

/-! ## The call of a message -/

theorem call_plain {X : Codecs} {σ : Orders} {m : Message}
    (h : ∀ pubkey lamports data compression owner executable rentEpoch slot writeVersion,
      m = .account pubkey lamports data compression owner executable rentEpoch slot writeVersion → compression = .none) :
    messageCall X σ m = .ok (reported σ m) := by
  cases m with
  | account pubkey lamports data compression owner executable rentEpoch slot writeVersion =>
    obtain rfl := h _ _ _ _ _ _ _ _ _ rfl
    rfl
  | slot slot parent level => cases level <;> rfl
  | other => rfl

theorem streamCall_slot {X : Codecs} {s s' : TokenStore} {o : TOp} :
    streamCall X s o = .ok (s', true) ↔ s.step X o = .ok s' := by
  cases o with
  | slot σ info c =>
    simp only [streamCall, TokenStore.step, Run.bind_eq_ok, Run.pure_eq, Run.ok.injEq, Prod.mk.injEq, Prod.exists]
    constructor
    · rintro ⟨s1, r, h1, rfl, h2⟩
      obtain ⟨l, rfl⟩ := Option.isSome_iff_exists.1 h2
      exact ⟨l, s1, (Props.attempt_ok _ _ _ _ _ _).1 h1, rfl⟩
    · rintro ⟨l, s1, h1, rfl⟩
      exact ⟨s1, some l, (Props.attempt_ok _ _ _ _ _ _).2 h1, rfl, rfl⟩
  | update a c =>
    simp only [streamCall]
    cases s.step X (.update a c) <;> simp
  | init a =>
    simp only [streamCall]
    cases s.step X (.init a) <;> simp

/-! ## The calls made so far -/

theorem streamed_snoc (evs : List Event) (e : Event) : streamed (evs ++ [e]) =
    streamed evs ++ (match e with | .message σ m => reported σ m | _ => none).toList := by
  simp only [streamed, List.filterMap_append, List.filterMap_cons, List.filterMap_nil]
  cases e with
  | message σ m => cases h : reported σ m <;> simp [h]
  | _ => rfl

theorem plain_left {evs : List Event} {e : Event} (h : Plain (evs ++ [e])) : Plain evs :=
  fun σ p l d c o x r s v hm => h σ p l d c o x r s v (by simp [hm])

theorem loadsFirst_left {X : Codecs} {decode : Bytes → Option Manifest} {all : Bool} {evs : List Event} {e : Event} {w : Main}
    (h : LoadsFirst X decode all (evs ++ [e]) w) : LoadsFirst X decode all evs w :=
  fun pre σ slot parent level post hs => h pre σ slot parent level (post ++ [e]) (by simp [hs])

theorem listening_back {X : Codecs} {decode : Bytes → Option Manifest} {w w' : Main} {e : Event} (h : w.step X decode e = .ok w')
    (hl : w'.listening = true) : w.listening = true := by
  cases e with
  | load =>
    simp only [Main.step, Run.bind_eq_ok] at h
    obtain ⟨⟨l, s⟩, -, h⟩ := h
    simp at h; subst h; exact hl
  | message σ m =>
    simp only [Main.step] at h
    split at h
    · assumption
    · simp at h; subst h; exact hl
  | hangUp => simp [Main.step] at h; subst h; simp at hl

/-- A message while the task is listening and goes on. -/
theorem message_step {X : Codecs} {decode : Bytes → Option Manifest} {w w' : Main} {σ : Orders} {m : Message}
    (hp : messageCall X σ m = .ok (reported σ m)) (h : w.step X decode (.message σ m) = .ok w') (hl : w'.listening = true) :
    w'.loader = w.loader ∧ ((reported σ m = none ∧ w'.store = w.store) ∨
      ∃ o, reported σ m = some o ∧ w.store.step X o = .ok w'.store) := by
  have hb := listening_back h hl
  simp only [Main.step, hb, if_true, hp] at h
  cases ho : reported σ m with
  | none => rw [ho] at h; simp at h; subst h; exact ⟨rfl, .inl ⟨rfl, rfl⟩⟩
  | some o =>
    rw [ho] at h
    simp only [Run.bind_eq_ok, Prod.exists] at h
    obtain ⟨s, b, h1, h⟩ := h
    simp at h; subst h
    simp only at hl
    subst hl
    exact ⟨rfl, .inr ⟨o, rfl, streamCall_slot.1 h1⟩⟩

theorem run_snoc_ok {X : Codecs} {ops : List TOp} {o : TOp} {s s1 s' : TokenStore} (h : TokenStore.run X ops s = .ok s1)
    (h' : s1.step X o = .ok s') : TokenStore.run X (ops ++ [o]) s = .ok s' :=
  (storeRun_append _ _).2 ⟨s1, h, by simp [TokenStore.run, h']⟩

theorem loadedFirst_snoc {pk : Pubkey} {ops : List TOp} {o : TOp} (h : LoadedFirst pk ops)
    (ho : ∀ a, AtOnce o → submittedBy o = some a → a.pubkey = pk → lastFinal ops = 0) : LoadedFirst pk (ops ++ [o]) := by
  intro pre o' post a e h1 h2 h3
  rcases List.eq_nil_or_concat post with rfl | ⟨l, x, rfl⟩
  · obtain ⟨rfl, e2⟩ := List.append_inj' e rfl
    simp at e2; subst e2
    exact ho a h1 h2 h3
  · rw [List.concat_eq_append, ← List.cons_append, ← List.append_assoc] at e
    obtain ⟨rfl, -⟩ := List.append_inj' e rfl
    exact h pre o' l a rfl h1 h2 h3

/-- While the stream is followed, the store has got the loaded part of the archive and the stream, in some order. -/
theorem main_feed {X : Codecs} {decode : Bytes → Option Manifest} {items : List Item} {ws : List (Nat × Written)} {w : Main}
    (evs : List Event) (ha : WellFormedArchive decode items ws) (hp : Plain evs)
    (hr : (Main.start true items).run X decode evs = .ok w) (hl : w.listening = true) :
    ∃ before rest n ops, Left decode w.loader rest n ∧ tokenOwned (ws.map (·.2)) = before ++ tokenOwned rest ∧
      Interleaved (before.map (fun w => TOp.init w.submitted)) (streamed evs) ops ∧ TokenStore.run X ops .empty = .ok w.store ∧
      (LoadsFirst X decode false evs (Main.start true items) →
        (∀ pk, LoadedFirst pk ops) ∧ (¬ w.serves → lastFinal ops = 0)) := by
  induction evs using List.reverseRecOn generalizing w with
  | nil =>
    simp [Main.run] at hr; subst hr
    refine ⟨[], _, _, [], .opening ha, rfl, .nil, rfl, fun _ => ⟨?_, fun _ => rfl⟩⟩
    intro pk pre o post a e; simp at e
  | append_singleton evs e ih =>
    obtain ⟨w1, h1, h2⟩ := main_snoc.1 hr
    obtain ⟨before, rest, n, ops, i1, i2, i3, i4, i5⟩ := ih (plain_left hp) h1 (listening_back h2 hl)
    cases e with
    | hangUp => simp [Main.step] at h2; subst h2; simp at hl
    | load =>
      have est : streamed (evs ++ [.load]) = streamed evs := by rw [streamed_snoc]; simp
      rw [est]
      simp only [Main.step, Run.bind_eq_ok, Prod.exists] at h2
      obtain ⟨l', s', h2, h3⟩ := h2
      simp at h3; subst h3
      rcases left_step (X := X) i1 w1.store with ⟨g1, g2⟩ | ⟨l2, n2, g1, g2, -, ws', g3, g4⟩ | ⟨l2, n2, v, ws', g1, rfl, g3, g4, -, g5⟩
      · rw [g2] at h2
        simp only [Run.ok.injEq, Prod.mk.injEq] at h2
        obtain ⟨rfl, rfl⟩ := h2
        exact ⟨before, rest, n, ops, i1, i2, i3, i4, fun h => i5 (loadsFirst_left h)⟩
      · rw [g2] at h2
        simp only [Run.ok.injEq, Prod.mk.injEq] at h2
        obtain ⟨rfl, rfl⟩ := h2
        refine ⟨before, ws', n2, ops, g3, by rw [g4]; exact i2, i3, i4, fun h => ⟨(i5 (loadsFirst_left h)).1, fun _ => ?_⟩⟩
        exact (i5 (loadsFirst_left h)).2 g1
      · rw [g5] at h2
        simp only [Run.bind_eq_ok, Run.pure_eq, Run.ok.injEq, Prod.mk.injEq] at h2
        obtain ⟨s2, h2, rfl, rfl⟩ := h2
        have hmap : (before ++ [v]).map (fun w => TOp.init w.submitted) = before.map (fun w => TOp.init w.submitted) ++ [TOp.init v.submitted] := by simp
        refine ⟨before ++ [v], ws', n2, ops ++ [.init v.submitted], g4, ?_, by rw [hmap]; exact interleaved_snoc_left i3 _,
          run_snoc_ok i4 h2, fun h => ?_⟩
        · rw [i2]; simp [tokenOwned, g3]
        · have hz := (i5 (loadsFirst_left h)).2 g1
          refine ⟨fun pk => loadedFirst_snoc ((i5 (loadsFirst_left h)).1 pk) (fun _ _ _ _ => hz), fun _ => ?_⟩
          rw [lastFinal_snoc_of (by simp)]; exact hz
    | message σ m =>
      have hcall := call_plain (X := X) (σ := σ) (m := m) (by
        rintro p l d c o x r s v rfl
        exact hp σ p l d c o x r s v (by simp))
      obtain ⟨g1, ⟨g2, g3⟩ | ⟨o, g2, g3⟩⟩ := message_step hcall h2 hl
      · have est : streamed (evs ++ [.message σ m]) = streamed evs := by rw [streamed_snoc]; simp [g2]
        rw [est, g1, g3]
        refine ⟨before, rest, n, ops, i1, i2, i3, i4, fun h => ⟨(i5 (loadsFirst_left h)).1, fun hs => ?_⟩⟩
        exact (i5 (loadsFirst_left h)).2 (by simpa [Main.serves, g1] using hs)
      · have est : streamed (evs ++ [.message σ m]) = streamed evs ++ [o] := by rw [streamed_snoc]; simp [g2]
        rw [est, g1]
        refine ⟨before, rest, n, ops ++ [o], i1, i2, interleaved_snoc_right i3 _, run_snoc_ok i4 g3, fun h => ⟨fun pk => ?_, fun hs => ?_⟩⟩
        · refine loadedFirst_snoc ((i5 (loadsFirst_left h)).1 pk) ?_
          intro a h1 h2 _
          have : o ∈ streamed (evs ++ [.message σ m]) := by rw [est]; simp
          rcases streamed_kind this with ⟨a, rfl, -⟩ | ⟨σ, info, c, rfl, -⟩
          · simp [AtOnce] at h1
          · cases h2
        · have hz := (i5 (loadsFirst_left h)).2 (by simpa [Main.serves, g1] using hs)
          rcases finalizing o with ⟨σ', info, rfl⟩ | hf
          · exfalso
            cases m with
            | slot slot parent level =>
              cases level with
              | finalized =>
                obtain ⟨w2, e1, e2⟩ := h evs σ slot parent .finalized [] rfl (.inl rfl)
                rw [h1] at e1; cases e1
                exact hs (by simpa [Main.serves, g1] using e2)
              | _ => simp [reported] at g2
            | _ => simp [reported] at g2
          · rw [lastFinal_snoc_of hf]; exact hz

/-- A loader that has ended stays so. -/
theorem serves_step {X : Codecs} {decode : Bytes → Option Manifest} {w w' : Main} {e : Event} (h : w.step X decode e = .ok w')
    (hs : w.serves) : w'.serves ∧ (w.listening = false → w' = w) := by
  unfold Main.serves at *
  cases e with
  | load =>
    simp only [Main.step, hs, loadStep, Run.ok_bind, Run.pure_eq, Run.ok.injEq] at h
    subst h
    refine ⟨rfl, fun _ => ?_⟩
    cases w; simp at hs; simp [hs]
  | message σ m =>
    simp only [Main.step] at h
    split at h
    · rename_i hl
      refine ⟨?_, fun h => by rw [hl] at h; simp at h⟩
      split at h
      · simp at h; subst h; exact hs
      · simp only [Run.bind_eq_ok, Prod.exists] at h
        obtain ⟨s, b, -, h⟩ := h
        simp at h; subst h; exact hs
      · simp at h; subst h; exact hs
      · simp at h
    · simp at h; subst h; exact ⟨hs, fun _ => rfl⟩
  | hangUp =>
    simp [Main.step] at h; subst h
    refine ⟨hs, fun hl => ?_⟩
    cases w; simp at hl; simp [hl]

end LAM.Sim
