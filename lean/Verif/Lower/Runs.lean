/-
The executions of the program and of the object correspond.
-/
import Verif.Lower.Blocks
namespace Grey.Lower
open List Grey.Cfg Grey.Inline Grey.Sfs

/-! ### Numbers of steps -/

/-- The execution ends after `n` further steps. -/
def EndsIn {C S : Type} (f : C → Out C S) (s : S) : Nat → C → Prop
  | 0, c => f c = .halt s
  | n + 1, c => ∃ d, f c = .goto d ∧ EndsIn f s n d

/-- The execution gets stuck after `n` further steps. -/
def WrongIn {C S : Type} (f : C → Out C S) : Nat → C → Prop
  | 0, c => f c = .stuck
  | n + 1, c => ∃ d, f c = .goto d ∧ WrongIn f n d

variable {C S : Type} {f : C → Out C S}

theorem ends_in {c : C} {s : S} (h : Ends f c s) : ∃ n, EndsIn f s n c := by
  induction h with
  | now h => exact ⟨0, h⟩
  | later h _ ih => obtain ⟨n, hn⟩ := ih; exact ⟨n + 1, _, h, hn⟩

theorem wrong_in {c : C} (h : Wrong f c) : ∃ n, WrongIn f n c := by
  induction h with
  | now h => exact ⟨0, h⟩
  | later h _ ih => obtain ⟨n, hn⟩ := ih; exact ⟨n + 1, _, h, hn⟩

theorem endsIn_gets {c d : C} (h : Gets f c d) {s : S} : ∀ {n : Nat}, EndsIn f s n c → ∃ m, m ≤ n ∧ EndsIn f s m d := by
  induction h with
  | refl => intro n hn; exact ⟨n, Nat.le_refl _, hn⟩
  | step h1 _ ih =>
    intro n hn
    cases n with
    | zero => rw [EndsIn, h1] at hn; cases hn
    | succ n =>
      obtain ⟨d, hd, hn⟩ := hn
      rw [h1] at hd
      cases hd
      obtain ⟨m, hm, hm'⟩ := ih hn
      exact ⟨m, by omega, hm'⟩

theorem wrongIn_gets {c d : C} (h : Gets f c d) : ∀ {n : Nat}, WrongIn f n c → ∃ m, m ≤ n ∧ WrongIn f m d := by
  induction h with
  | refl => intro n hn; exact ⟨n, Nat.le_refl _, hn⟩
  | step h1 _ ih =>
    intro n hn
    cases n with
    | zero => rw [WrongIn, h1] at hn; cases hn
    | succ n =>
      obtain ⟨d, hd, hn⟩ := hn
      rw [h1] at hd
      cases hd
      obtain ⟨m, hm, hm'⟩ := ih hn
      exact ⟨m, by omega, hm'⟩

theorem endsIn_ends {c : C} {s s' : S} : ∀ {n : Nat}, EndsIn f s n c → Ends f c s' → s' = s := by
  intro n hn h
  induction h generalizing n with
  | now h =>
    cases n with
    | zero => rw [EndsIn, h] at hn; cases hn; rfl
    | succ n => obtain ⟨d, hd, _⟩ := hn; rw [h] at hd; cases hd
  | later h _ ih =>
    cases n with
    | zero => rw [EndsIn, h] at hn; cases hn
    | succ n => obtain ⟨d, hd, hn⟩ := hn; rw [h] at hd; cases hd; exact ih hn

theorem endsIn_wrong {c : C} {s : S} : ∀ {n : Nat}, EndsIn f s n c → ¬ Wrong f c := by
  intro n hn h
  induction h generalizing n with
  | now h =>
    cases n with
    | zero => rw [EndsIn, h] at hn; cases hn
    | succ n => obtain ⟨d, hd, _⟩ := hn; rw [h] at hd; cases hd
  | later h _ ih =>
    cases n with
    | zero => rw [EndsIn, h] at hn; cases hn
    | succ n => obtain ⟨d, hd, hn⟩ := hn; rw [h] at hd; cases hd; exact ih hn

/-! ### The correspondence -/

section
variable {V σ : Type} {names : List String} {R : Option String → Option String} {T : TagDict} {H O' : Obj}
  {dec : String → String × Option (List String)} {I : Interp V σ} {main : String} {A : Option String → Analysis}
variable (hr : Ready names R T H O' dec I main)
include hr

theorem ends_of_runs {c' : Program.Config V σ} {tr : List (String × String × σ)} {x : Program.Config V σ ⊕ Program.Halted V σ}
    (h : Program.Runs (toProg names dec main A O') I c' tr x) (w0 : σ × Option (String × List V)) :
    ∀ {c}, Match names R H I main c c' → match x with
      | .inr hh => ∃ s, Ends (run (meaning I dec) (zeros I) H w0) (some c) s ∧ haltedOf s = hh
      | .inl d' => Program.step (toProg names dec main A O') I d' = none → Wrong (run (meaning I dec) (zeros I) H w0) (some c) := by
  induction h with
  | nil c' =>
    intro c hm hs
    have := follows (A := A) hr hm w0
    rw [hs] at this
    exact this
  | halt hs =>
    intro c hm
    have := follows (A := A) hr hm w0
    rw [hs] at this
    exact this
  | @cons c1 c2 tr x hs _ ih =>
    intro c hm
    have := follows (A := A) hr hm w0
    rw [hs] at this
    obtain ⟨m, d, h1, h2, h3⟩ := this
    have hg : Gets (run (meaning I dec) (zeros I) H w0) (some c) (some d) := .step h1 h2
    cases x with
    | inl d' => intro hn; exact wrong_of_gets hg (ih h3 hn)
    | inr hh => obtain ⟨s, hs1, hs2⟩ := ih h3; exact ⟨s, ends_of_gets hg hs1, hs2⟩

theorem runs_of_ends (w0 s : σ × Option (String × List V)) : ∀ (n : Nat) {c c'}, Match names R H I main c c' →
    EndsIn (run (meaning I dec) (zeros I) H w0) s n (some c) → ∃ tr, Program.Runs (toProg names dec main A O') I c' tr (.inr (haltedOf s)) := by
  intro n
  induction n using Nat.strongRecOn with
  | _ n ih =>
    intro c c' hm hn
    have := follows (A := A) hr hm w0
    cases hst : Program.step (toProg names dec main A O') I c' with
    | none =>
      rw [hst] at this
      exact absurd this (endsIn_wrong hn)
    | some o =>
      rw [hst] at this
      cases o with
      | inr hh =>
        obtain ⟨s', h1, h2⟩ := this
        rw [endsIn_ends hn h1] at h2
        exact ⟨_, by rw [h2]; exact .halt hst⟩
      | inl d' =>
        obtain ⟨m, d, h1, h2, h3⟩ := this
        cases n with
        | zero => rw [EndsIn, h1] at hn; cases hn
        | succ n =>
          obtain ⟨m', hm', hn⟩ := hn
          rw [h1] at hm'
          cases hm'
          obtain ⟨k, hk, hk'⟩ := endsIn_gets h2 hn
          obtain ⟨tr, htr⟩ := ih k (by omega) h3 hk'
          exact ⟨_, .cons hst htr⟩

theorem stuck_of_wrong (w0 : σ × Option (String × List V)) : ∀ (n : Nat) {c c'}, Match names R H I main c c' →
    WrongIn (run (meaning I dec) (zeros I) H w0) n (some c) →
    ∃ tr d', Program.Runs (toProg names dec main A O') I c' tr (.inl d') ∧ Program.step (toProg names dec main A O') I d' = none := by
  intro n
  induction n using Nat.strongRecOn with
  | _ n ih =>
    intro c c' hm hn
    have := follows (A := A) hr hm w0
    cases hst : Program.step (toProg names dec main A O') I c' with
    | none => exact ⟨[], c', .nil _, hst⟩
    | some o =>
      rw [hst] at this
      cases o with
      | inr hh =>
        obtain ⟨s', h1, h2⟩ := this
        obtain ⟨k, hk⟩ := ends_in h1
        exact absurd (by
          clear ih hst hm
          revert hn
          generalize some c = a
          intro hn
          induction n generalizing a with
          | zero => exact .now hn
          | succ n ih => obtain ⟨d, hd, hn⟩ := hn; exact .later hd (ih _ hn)) (endsIn_wrong hk)
      | inl d' =>
        obtain ⟨m, d, h1, h2, h3⟩ := this
        cases n with
        | zero => rw [WrongIn, h1] at hn; cases hn
        | succ n =>
          obtain ⟨m', hm', hn⟩ := hn
          rw [h1] at hm'
          cases hm'
          obtain ⟨k, hk, hk'⟩ := wrongIn_gets h2 hn
          obtain ⟨tr, d2, htr, hd2⟩ := ih k (by omega) h3 hk'
          exact ⟨_, d2, .cons hst htr, hd2⟩

/-- The beginning. -/
theorem match_start (w : σ) : ∃ c, run (meaning I dec) (zeros I) H (w, none) none = .goto (some c) ∧ Match names R H I main c (entry I main O' w) := by
  have hC : H.comp none = some ⟨[], H.main⟩ := rfl
  obtain ⟨C', hC', hdc⟩ := hr.deco.some none _ hC
  have hC'' : C' = ⟨[], O'.main⟩ := (Option.some.inj hC').symm
  subst hC''
  obtain ⟨s, S, h1, h2⟩ := (hr.parts.sane none _ hC).start
  have hp : phis S = [] := hr.parts.start none _ hC s S h1 h2
  have hst : O'.main.start = some s := hdc.start.trans h1
  refine ⟨⟨⟨none, s, code S, zeros I⟩, [], (w, none)⟩, ?_, ?_⟩
  · have hp' : S.instrs.filter isPhi = [] := hp
    have h1' : H.main.start = some s := h1
    have h2' : H.main.get s = some S := h2
    show (start _ _ _).map some = _
    unfold start
    simp only [h1', Inline.goto, h2', enter, enterWith, hp', if_true]
    rfl
  · unfold entry
    rw [hst]
    exact Match.mk (comp := none) hC h2 rel_zeros .nil

/-- The program and the object end alike and get stuck alike. -/
theorem runs_iff (w : σ) :
    (∀ h, (∃ tr, Program.Runs (toProg names dec main A O') I (entry I main O' w) tr (.inr h)) ↔
      ∃ s, Ends (run (meaning I dec) (zeros I) H (w, none)) none s ∧ haltedOf s = h) ∧
    ((∃ tr c, Program.Runs (toProg names dec main A O') I (entry I main O' w) tr (.inl c) ∧ Program.step (toProg names dec main A O') I c = none) ↔
      Wrong (run (meaning I dec) (zeros I) H (w, none)) none) := by
  obtain ⟨c, h1, h2⟩ := match_start hr w
  refine ⟨fun h => ⟨?_, ?_⟩, ⟨?_, ?_⟩⟩
  · rintro ⟨tr, htr⟩
    obtain ⟨s, hs, hh⟩ := ends_of_runs hr htr (w, none) h2
    exact ⟨s, .later h1 hs, hh⟩
  · rintro ⟨s, hs, rfl⟩
    cases hs with
    | now h => rw [h1] at h; cases h
    | later h hs =>
      rw [h1] at h
      cases h
      obtain ⟨n, hn⟩ := ends_in hs
      exact runs_of_ends hr (w, none) s n h2 hn
  · rintro ⟨tr, d, htr, hd⟩
    exact .later h1 (ends_of_runs hr htr (w, none) h2 hd)
  · intro hs
    cases hs with
    | now h => rw [h1] at h; cases h
    | later h hs =>
      rw [h1] at h
      cases h
      obtain ⟨n, hn⟩ := wrong_in hs
      exact stuck_of_wrong hr (w, none) n h2 hn

end
end Grey.Lower
