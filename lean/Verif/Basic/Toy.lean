import Verif.Model.Types
/-!
# Toy codecs for concrete examples

A lawful instance of `Codecs`, used only to show that hypotheses of theorems are satisfiable and to
run concrete counterexamples.
-/
namespace LAM.Toy

/-- Compression prepends a tag byte; text decodes byte-wise if all bytes are at least `'1'` / `'A'`. -/
def codecs : Codecs where
  lz4c _ d := some (4 :: d)
  lz4d b := match b with | 4 :: d => some d | _ => none
  zstdc _ d := some (5 :: d)
  zstdd b cap := match b with | 5 :: d => if d.length ≤ cap then some d else none | _ => none
  b58 s := if s.all (· ≥ 49) then some (s.map (· - 49)) else none
  b64 s := if s.all (· ≥ 65) then some (s.map (· - 65)) else none

theorem lawful : codecs.Lawful := by
  refine ⟨fun lvl d b h => ?_, fun lvl d b cap h => ?_⟩
  · simp [codecs] at h; subst h; rfl
  · simp [codecs] at h; subst h; rfl

def alice : Pubkey := Pubkey.fill 1
def bob : Pubkey := Pubkey.fill 2
def prog : Pubkey := Pubkey.fill 10
def prog2 : Pubkey := Pubkey.fill 11

/-- An uncompressed account. -/
def acct (pk owner : Pubkey) (lamports slot wv : Nat) (d : Bytes := [1, 2, 3]) : AccountData :=
  { pubkey := pk, slot := slot, wv := wv,
    account := { lamports := lamports, data := .uncompressed d, owner := owner,
                 executable := false, rentEpoch := 0 } }

end LAM.Toy
