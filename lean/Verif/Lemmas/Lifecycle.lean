import Verif.Spec.Lifecycle

/-! What holds of the groups at every moment. -/

namespace Verif.Lifecycle
open Spec

/-- The worker has left its loop. -/
def Work.out : Work → Bool
  | .stop | .close | .drop | .last | .gone => true
  | _ => false

/-- The worker has freed what it frees. -/
def Work.freed : Work → Bool
  | .last | .gone => true
  | _ => false

/-- What holds of a group, according to whether it is in use. -/
def Good (live : Prop) (m : Mod) : Prop :=
  match m.kind with
  | .udp =>
    m.work = !decide (m.wk = .gone) ∧ m.sweep = !decide (m.sw = .gone) ∧ m.addrs = !m.wk.freed
    ∧ m.ctx = !decide (m.sw = .unlock ∨ m.sw = .last ∨ m.sw = .gone) ∧ m.lock = !decide (m.sw = .last ∨ m.sw = .gone)
    ∧ (m.sw = .free ∨ m.sw = .unlock ∨ m.sw = .last ∨ m.sw = .gone → m.wk = .gone)
    ∧ (m.wk.out = true → ¬ live) ∧ (m.isServer = false → ¬ live)
    ∧ (m.blk = false → m.wk = .gone ∧ m.sw = .gone ∧ ¬ live)
  | .tcp =>
    m.work = !decide (m.wk = .gone) ∧ m.sweep = false ∧ m.sw = .gone ∧ m.addrs = !m.wk.freed ∧ m.ctx = !m.wk.freed
    ∧ m.wk ≠ .open ∧ m.wk ≠ .recv ∧ m.wk ≠ .take
    ∧ (m.blk = false → m.wk = .gone ∧ ¬ live)
  | .proxied =>
    m.work = true ∧ m.sweep = false ∧ m.sw = .gone ∧ m.addrs = true ∧ m.ctx = true ∧ (m.wk = .test ∨ m.wk = .wait) ∧ m.isServer = true
    ∧ m.blk = true ∧ live

theorem good_new {live : Prop} (hl : live) (k : Kind) (n : Nat) : Good live (Mod.new k n) := by
  cases k <;> simp [Good, Mod.new, Work.out, Work.freed, hl]

theorem good_mono {a b : Prop} (m : Mod) (h : Good a m) (hp : m.kind = .proxied → b) (hab : b → a) : Good b m := by
  rcases m with ⟨k, map, isS, work, sweep, isO, addrs, prox, ctx, lock, blk, wk, sw⟩
  cases k
  · simp only [Good] at h ⊢
    exact ⟨h.1, h.2.1, h.2.2.1, h.2.2.2.1, h.2.2.2.2.1, h.2.2.2.2.2.1, fun x y => h.2.2.2.2.2.2.1 x (hab y), fun x y => h.2.2.2.2.2.2.2.1 x (hab y),
      fun x => ⟨(h.2.2.2.2.2.2.2.2 x).1, (h.2.2.2.2.2.2.2.2 x).2.1, fun y => (h.2.2.2.2.2.2.2.2 x).2.2 (hab y)⟩⟩
  · simp only [Good] at h ⊢
    exact ⟨h.1, h.2.1, h.2.2.1, h.2.2.2.1, h.2.2.2.2.1, h.2.2.2.2.2.1, h.2.2.2.2.2.2.1, h.2.2.2.2.2.2.2.1, fun x =>
      ⟨(h.2.2.2.2.2.2.2.2 x).1, fun y => (h.2.2.2.2.2.2.2.2 x).2 (hab y)⟩⟩
  · simp only [Good] at h ⊢
    exact ⟨h.1, h.2.1, h.2.2.1, h.2.2.2.1, h.2.2.2.2.1, h.2.2.2.2.2.1, h.2.2.2.2.2.2.1, h.2.2.2.2.2.2.2.1, hp rfl⟩

/-- What does not change when a thread of a group makes a step. -/
def Same (m m' : Mod) : Prop :=
  m'.kind = m.kind ∧ m'.map = m.map ∧ m'.blk = m.blk ∧ (m.wk = .gone → m'.wk = .gone) ∧ (m.sw = .gone → m'.sw = .gone)

theorem work_udp {live : Prop} {m : Mod} (l : Luck) (hk : m.kind = .udp) (h : Good live m)
    (ha : ¬ (l = .fails ∧ m.wk = .open ∧ m.isOpen = false ∧ live)) :
    ∃ m', workStep m l = some m' ∧ Good live m' ∧ Same m m' := by
  rcases m with ⟨k, map, isS, work, sweep, isO, addrs, prox, ctx, lock, blk, wk, sw⟩
  dsimp only at hk
  subst hk
  simp only [Good] at h ha
  by_cases hw : wk = .gone
  · subst hw
    exact ⟨_, rfl, by simpa only [Good] using h, by simp [Same]⟩
  · obtain ⟨h1, h2, h3, h4, h5, h6, h7, h8, h9⟩ := h
    have hb : blk = true := by
      cases blk with
      | true => rfl
      | false => exact absurd (h9 rfl).1 hw
    have hs : sw = .test ∨ sw = .sweep := by
      cases sw with
      | test => exact .inl rfl
      | sweep => exact .inr rfl
      | free => exact absurd (h6 (.inl rfl)) hw
      | unlock => exact absurd (h6 (.inr (.inl rfl))) hw
      | last => exact absurd (h6 (.inr (.inr (.inl rfl)))) hw
      | gone => exact absurd (h6 (.inr (.inr (.inr rfl)))) hw
    have hc : ctx = true := by rw [h4]; rcases hs with rfl | rfl <;> rfl
    have hlk : lock = true := by rw [h5]; rcases hs with rfl | rfl <;> rfl
    have h6' : ∀ w : Work, (sw = .free ∨ sw = .unlock ∨ sw = .last ∨ sw = .gone → w = .gone) := by
      rcases hs with rfl | rfl <;> intro w hx <;> simp at hx
    have hsg : sw ≠ .gone := by rcases hs with rfl | rfl <;> decide
    subst hb hc hlk
    clear h6 h9
    cases wk
    case gone => exact absurd rfl hw
    case test =>
      cases isS
      · exact ⟨_, rfl, ⟨h1, h2, h3, h4, h5, h6' _, fun _ => h8 rfl, h8, by simp⟩, rfl, rfl, rfl, by simp, by simp⟩
      · exact ⟨_, rfl, ⟨h1, h2, h3, h4, h5, h6' _, by simp [Work.out], h8, by simp⟩, rfl, rfl, rfl, by simp, by simp⟩
    case «open» =>
      simp only [Work.freed] at h3
      subst h3
      cases isO
      · cases l
        · exact ⟨_, rfl, ⟨h1, h2, rfl, h4, h5, h6' _, by simp [Work.out], h8, by simp⟩, rfl, rfl, rfl, by simp, by simp⟩
        · refine ⟨_, rfl, ⟨h1, h2, rfl, h4, h5, h6' _, fun _ hx => ha ⟨rfl, rfl, rfl, hx⟩, h8, by simp⟩, rfl, rfl, rfl, by simp, by simp⟩
        · exact ⟨_, rfl, ⟨h1, h2, rfl, h4, h5, h6' _, by simp [Work.out], h8, by simp⟩, rfl, rfl, rfl, by simp, by simp⟩
      · exact ⟨_, rfl, ⟨h1, h2, rfl, h4, h5, h6' _, by simp [Work.out], h8, by simp⟩, rfl, rfl, rfl, by simp, by simp⟩
    case wait =>
      cases l <;> exact ⟨_, rfl, ⟨h1, h2, h3, h4, h5, h6' _, by simp [Work.out], h8, by simp⟩, rfl, rfl, rfl, by simp, by simp⟩
    case recv =>
      cases l <;> exact ⟨_, rfl, ⟨h1, h2, h3, h4, h5, h6' _, by simp [Work.out], h8, by simp⟩, rfl, rfl, rfl, by simp, by simp⟩
    case take => exact ⟨_, rfl, ⟨h1, h2, h3, h4, h5, h6' _, by simp [Work.out], h8, by simp⟩, rfl, rfl, rfl, by simp, by simp⟩
    case stop => exact ⟨_, rfl, ⟨h1, h2, h3, h4, h5, h6' _, fun _ => h7 rfl, fun _ => h7 rfl, by simp⟩, rfl, rfl, rfl, by simp, by simp⟩
    case close => exact ⟨_, rfl, ⟨h1, h2, h3, h4, h5, h6' _, fun _ => h7 rfl, h8, by simp⟩, rfl, rfl, rfl, by simp, by simp⟩
    case drop =>
      simp only [Work.freed] at h3
      subst h3
      exact ⟨_, rfl, ⟨h1, h2, rfl, h4, h5, h6' _, fun _ => h7 rfl, h8, by simp⟩, rfl, rfl, rfl, by simp, by simp⟩
    case last => exact ⟨_, rfl, ⟨rfl, h2, h3, h4, h5, h6' _, fun _ => h7 rfl, h8, by simp⟩, rfl, rfl, rfl, by simp, by simp⟩

theorem work_tcp {live : Prop} {m : Mod} (l : Luck) (hk : m.kind = .tcp) (h : Good live m) :
    ∃ m', workStep m l = some m' ∧ Good live m' ∧ Same m m' := by
  rcases m with ⟨k, map, isS, work, sweep, isO, addrs, prox, ctx, lock, blk, wk, sw⟩
  dsimp only at hk
  subst hk
  simp only [Good] at h
  cases wk
  case gone => exact ⟨_, rfl, by simpa only [Good] using h, by simp [Same]⟩
  all_goals
    obtain ⟨h1, h2, h3, h4, h5, h6, h7, h8, h9⟩ := h
    cases blk
    · simp at h9
    · cases isS <;> cases l <;> simp_all [workStep, Good, Same, Work.freed, free]

theorem work_good {live : Prop} {m : Mod} (l : Luck) (h : Good live m)
    (ha : ¬ (l = .fails ∧ (m.kind = .udp ∧ m.wk = .open ∧ m.isOpen = false ∧ live ∨ m.kind = .proxied))) :
    ∃ m', workStep m l = some m' ∧ Good live m' ∧ Same m m' := by
  cases hk : m.kind
  · exact work_udp l hk h fun x => ha ⟨x.1, .inl ⟨hk, x.2⟩⟩
  · exact work_tcp l hk h
  · rcases m with ⟨k, map, isS, work, sweep, isO, addrs, prox, ctx, lock, blk, wk, sw⟩
    dsimp only at hk
    subst hk
    simp only [Good] at h ha
    obtain ⟨h1, h2, h3, h4, h5, h6, h7, h8, h9⟩ := h
    rcases h6 with h6 | h6 <;> subst h6 <;> cases l <;> simp_all [workStep, Good, Same]

theorem sweep_good {live : Prop} {m : Mod} (h : Good live m) : ∃ m', sweepStep m = some m' ∧ Good live m' ∧ Same m m' := by
  rcases m with ⟨k, map, isS, work, sweep, isO, addrs, prox, ctx, lock, blk, wk, sw⟩
  cases k
  · simp only [Good] at h
    cases sw
    case gone => exact ⟨_, rfl, by simpa only [Good] using h, by simp [Same]⟩
    all_goals
      obtain ⟨h1, h2, h3, h4, h5, h6, h7, h8, h9⟩ := h
      cases blk
      · simp at h9
      · cases isS <;> cases wk <;> simp_all [sweepStep, Good, Same, Work.out, Work.freed, free]
  · simp only [Good] at h
    have : sw = .gone := h.2.2.1
    subst this
    exact ⟨_, rfl, by simpa only [Good] using h, by simp [Same]⟩
  · simp only [Good] at h
    have : sw = .gone := h.2.2.1
    subst this
    exact ⟨_, rfl, by simpa only [Good] using h, by simp [Same]⟩

theorem live_blk {live : Prop} {m : Mod} (h : Good live m) (hl : live) : m.blk = true := by
  rcases m with ⟨k, map, isS, work, sweep, isO, addrs, prox, ctx, lock, blk, wk, sw⟩
  cases blk
  · exfalso
    cases k
    · simp only [Good] at h; exact (h.2.2.2.2.2.2.2.2 trivial).2.2 hl
    · simp only [Good] at h; exact (h.2.2.2.2.2.2.2.2 trivial).2 hl
    · simp only [Good] at h; exact absurd h.2.2.2.2.2.2.2.1 (by simp)
  · rfl

theorem live_udp {live : Prop} {m : Mod} (h : Good live m) (hl : live) (hk : m.kind = .udp) : m.addrs = true ∧ m.ctx = true ∧ m.lock = true ∧ m.isServer = true ∧ m.wk.out = false := by
  rcases m with ⟨k, map, isS, work, sweep, isO, addrs, prox, ctx, lock, blk, wk, sw⟩
  subst hk
  simp only [Good] at h
  obtain ⟨h1, h2, h3, h4, h5, h6, h7, h8, h9⟩ := h
  cases isS
  · exact absurd hl (h8 rfl)
  · cases wk <;> simp_all [Work.out, Work.freed]

/-- A step of a sender. -/
theorem send_good {live : Prop} {m : Mod} (h : Good live m) (hl : live) {s : Send} (hs : s = .check ∨ s = .addr → m.kind = .udp) :
    ∃ s', sendStep m s = some s' ∧ (s' = .check ∨ s' = .addr → m.kind = .udp) := by
  have hb := live_blk h hl
  cases s with
  | add =>
    cases hk : m.kind with
    | udp =>
      obtain ⟨h1, h2, h3, _⟩ := live_udp h hl hk
      exact ⟨.check, by simp [sendStep, hb, hk, h2, h3], fun _ => rfl⟩
    | tcp => exact ⟨.leave, by simp [sendStep, hb, hk], by simp⟩
    | proxied => exact ⟨.leave, by simp [sendStep, hb, hk], by simp⟩
  | check => exact ⟨_, by simp only [sendStep, hb]; rfl, fun _ => hs (.inl rfl)⟩
  | addr =>
    obtain ⟨h1, h2, h3, _⟩ := live_udp h hl (hs (.inr rfl))
    exact ⟨.leave, by simp [sendStep, hb, h1], by simp⟩
  | leave => exact ⟨.leave, by simp [sendStep, hb], by simp⟩

theorem stop_good {live : Prop} {m : Mod} (h : Good live m) (hl : ¬ live) : Good live { m with isServer := false } := by
  rcases m with ⟨k, map, isS, work, sweep, isO, addrs, prox, ctx, lock, blk, wk, sw⟩
  cases k
  · simp only [Good] at h ⊢
    exact ⟨h.1, h.2.1, h.2.2.1, h.2.2.2.1, h.2.2.2.2.1, h.2.2.2.2.2.1, fun _ => hl, fun _ => hl, h.2.2.2.2.2.2.2.2⟩
  · simpa only [Good] using h
  · simp only [Good] at h
    exact absurd h.2.2.2.2.2.2.2.2 hl

theorem idle_gone {live : Prop} {m : Mod} (h : Good live m) (hw : m.work = false) (hs : m.sweep = false) : m.wk = .gone ∧ m.sw = .gone := by
  rcases m with ⟨k, map, isS, work, sweep, isO, addrs, prox, ctx, lock, blk, wk, sw⟩
  dsimp only at hw hs
  subst hw; subst hs
  cases k
  · simp only [Good] at h
    have h1 := h.1; have h2 := h.2.1
    exact ⟨by simpa using h1, by simpa using h2⟩
  · simp only [Good] at h
    have h1 := h.1
    exact ⟨by simpa using h1, h.2.2.1⟩
  · simp only [Good] at h
    simp at h

theorem free_good {live : Prop} {m : Mod} (h : Good live m) (hl : ¬ live) (hw : m.wk = .gone) (hs : m.sw = .gone) : Good live { m with blk := false } := by
  rcases m with ⟨k, map, isS, work, sweep, isO, addrs, prox, ctx, lock, blk, wk, sw⟩
  dsimp only at hw hs
  subst hw; subst hs
  cases k
  · simp only [Good] at h ⊢
    exact ⟨h.1, h.2.1, h.2.2.1, h.2.2.2.1, h.2.2.2.2.1, h.2.2.2.2.2.1, h.2.2.2.2.2.2.1, h.2.2.2.2.2.2.2.1, fun _ => ⟨trivial, trivial, hl⟩⟩
  · simp only [Good] at h ⊢
    exact ⟨h.1, h.2.1, h.2.2.1, h.2.2.2.1, h.2.2.2.2.1, h.2.2.2.2.2.1, h.2.2.2.2.2.2.1, h.2.2.2.2.2.2.2.1, fun _ => ⟨trivial, hl⟩⟩
  · simp only [Good] at h
    exact absurd h.2.2.2.2.2.2.2.2 hl

end Verif.Lifecycle
