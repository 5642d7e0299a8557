import Verif.Spec.Permissions
/-! C128: who may read and write the files the program makes. -/

namespace Verif.Permissions

/-- Whatever is done with files, those there are were there before or were made by the program with its mask. -/
theorem run_files (es : List Ev) : ∀ (s : Sys) (p : List Byte) (m : Mode), (run s es).files p = some m →
    (∃ q, s.files q = some m) ∨ ∃ k q, .opens k q ∈ es ∧ m = asks k &&& ~~~ s.mask := by
  induction es with
  | nil => intro s p m h; exact .inl ⟨p, h⟩
  | cons e es ih =>
    intro s p m h
    have hmask : (step s e).mask = s.mask := by
      cases e <;> simp only [step] <;> try split
      all_goals rfl
    have hsub : ∀ q m, (step s e).files q = some m → (∃ q', s.files q' = some m) ∨ ∃ k q', e = .opens k q' ∧ m = asks k &&& ~~~ s.mask := by
      intro q m hq
      cases e with
      | opens k p =>
        simp only [step] at hq
        split at hq
        · exact .inl ⟨q, hq⟩
        · simp only [put] at hq
          split at hq
          · exact .inr ⟨k, p, rfl, (Option.some.inj hq).symm⟩
          · exact .inl ⟨q, hq⟩
      | renames p p' =>
        simp only [step] at hq
        split at hq
        · exact .inl ⟨q, hq⟩
        · rename_i m' hp
          simp only [put] at hq
          split at hq
          · cases hq; exact .inl ⟨p, hp⟩
          · split at hq
            · cases hq
            · exact .inl ⟨q, hq⟩
      | removes p =>
        simp only [step, put] at hq
        split at hq
        · cases hq
        · exact .inl ⟨q, hq⟩
    rcases ih (step s e) p m h with ⟨q, hq⟩ | ⟨k, q, hk, rfl⟩
    · rcases hsub q m hq with h1 | ⟨k, q', rfl, rfl⟩
      · exact .inl h1
      · exact .inr ⟨k, q', by simp, rfl⟩
    · exact .inr ⟨k, q, by simp [hk], by rw [hmask]⟩

theorem made_respects (k : Kind) (mask : Mode) : Respects mask (asks k &&& ~~~ mask) := by
  intro i hi
  rw [BitVec.getLsbD_and, BitVec.getLsbD_not, hi]
  simp

theorem cache_private (mask : Mode) : Private (asks .cache &&& ~~~ mask) := by
  intro i hi
  rw [BitVec.getLsbD_and]
  have : (asks .cache).getLsbD i = false := by
    match i, hi with
    | 0, _ | 1, _ | 2, _ | 3, _ | 4, _ | 5, _ => decide
  rw [this]
  rfl

/-- C128.  In the foreground, whatever is done with files: a file that is there afterwards has the permissions of one that was there before, or none that the mask of the
user withholds.  In the background this holds of the file of the cache, which others may not use at all.  Missing: other files in the background
(`respected_false`). -/
theorem respected_partial {daemon forked : Bool} {s : Sys} {es : List Ev} {p : List Byte} {m : Mode} (h : (run (startUp daemon forked s) es).files p = some m)
    (hd : (daemon && forked) = false ∨ ∀ k q, .opens k q ∈ es → k = .cache) :
    (∃ q, s.files q = some m) ∨ ((daemon && forked) = false ∧ Respects s.mask m) ∨ Private m := by
  have hf : (startUp daemon forked s).files = s.files := by unfold startUp; split <;> rfl
  rcases run_files es _ p m h with ⟨q, hq⟩ | ⟨k, q, hk, rfl⟩
  · exact .inl ⟨q, by rw [← hf]; exact hq⟩
  · rcases hd with hd | hd
    · refine .inr (.inl ⟨hd, ?_⟩)
      have : (startUp daemon forked s).mask = s.mask := by unfold startUp; rw [hd]; rfl
      rw [this]
      exact made_respects k _
    · rw [hd k q hk]
      exact .inr (.inr (cache_private _))

/-- In the background every file the program makes, but that of the cache, can be changed by everybody – also the hosts it downloads – whatever the user's mask. -/
theorem background_open {s : Sys} {k : Kind} {p : List Byte} (hk : k ≠ .cache) (hp : s.files p = none) :
    ∃ m, (run (startUp true true s) [.opens k p]).files p = some m ∧ Open m := by
  refine ⟨asks k &&& ~~~ 0, ?_, ?_⟩
  · simp [run, step, startUp, hp, put]
  · cases k with
    | cache => exact absurd rfl hk
    | _ => exact ⟨by decide, by decide, by decide⟩

/-- The property. -/
def Respected : Prop := ∀ (daemon forked : Bool) (s : Sys) (es : List Ev) (p : List Byte) (m : Mode), (run (startUp daemon forked s) es).files p = some m →
  (∃ q, s.files q = some m) ∨ Respects s.mask m

/-- False in the background: with the usual mask 022, everybody may write to the log. -/
theorem respected_false : ¬ Respected := by
  intro h
  obtain ⟨m, h1, h2, -⟩ := background_open (s := ⟨0b000010010, fun _ => none⟩) (k := .log) (p := [108]) (by decide) rfl
  rcases h _ _ _ _ _ _ h1 with ⟨q, hq⟩ | h3
  · cases hq
  · have := h3 1 (by decide)
    rw [h2] at this
    cases this

/-- In the foreground with this mask: a log that is renamed, a new one, a download over an old file. -/
example :
    let s := run (startUp true false ⟨0b000010010, fun p => if p = [104] then some 0b110000000 else none⟩)
      [.opens .log [108], .renames [108] [49], .opens .log [108], .opens .download [116], .renames [116] [104], .opens .cache [99]]
    s.files [108] = some 0b110100100 ∧ s.files [49] = some 0b110100100 ∧ s.files [104] = some 0b110100100 ∧ s.files [116] = none ∧ s.files [99] = some 0b111000000 := by decide

/-- The owner's permission to read is one of the nine. -/
example : (asks .log).toNat = 6 * 64 + 6 * 8 + 6 ∧ (asks .cache).toNat = 7 * 64 := by decide

end Verif.Permissions
