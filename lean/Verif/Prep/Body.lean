/-
Changes of one component of an object that keep the instructions and move them among blocks: if the new component simulates the old one,
the executions of the object stay the same.
-/
import Verif.Inline.PassProof
namespace Grey.Prep
open List Grey.Cfg Grey.Inline

/-! ### A simulation in which the second program may stay where it is -/

theorem stutter {C C' S : Type} {f : C → Out C S} {f' : C' → Out C' S} (r : C → C') (ok : C → Prop) (μ : C → Nat)
    (hok : ∀ c d, ok c → f c = .goto d → ok d)
    (h : ∀ c, ok c → f' (r c) = (f c).map r ∨ ∃ d, f c = .goto d ∧ r d = r c ∧ μ d < μ c) {c : C} (hc : ok c) :
    SameBehaviour f c f' (r c) := by
  -- finitely many steps of the first program that the second one does not follow
  have wait : ∀ n c, μ c ≤ n → ok c → ∃ d, ok d ∧ r d = r c ∧ f' (r d) = (f d).map r ∧
      (∀ s, Ends f d s → Ends f c s) ∧ (Wrong f d → Wrong f c) := by
    intro n
    induction n with
    | zero =>
      intro c hn hc
      rcases h c hc with h1 | ⟨d, _, _, h3⟩
      · exact ⟨c, hc, rfl, h1, fun _ h => h, fun h => h⟩
      · omega
    | succ n ih =>
      intro c hn hc
      rcases h c hc with h1 | ⟨d, h1, h2, h3⟩
      · exact ⟨c, hc, rfl, h1, fun _ h => h, fun h => h⟩
      · obtain ⟨e, e1, e2, e3, e4, e5⟩ := ih d (by omega) (hok c d hc h1)
        exact ⟨e, e1, e2.trans h2, e3, fun s hs => .later h1 (e4 s hs), fun hs => .later h1 (e5 hs)⟩
  refine ⟨fun s => ⟨?_, ?_⟩, ?_, ?_⟩
  · intro he
    induction he with
    | now e =>
      rcases h _ hc with h1 | ⟨d, h1, _⟩
      · exact .now (by rw [h1, e]; rfl)
      · rw [e] at h1; cases h1
    | later e _ ih =>
      have ih := ih (hok _ _ hc e)
      rcases h _ hc with h1 | ⟨d, h1, h2, _⟩
      · exact .later (by rw [h1, e]; rfl) ih
      · rw [e] at h1; cases h1; rw [← h2]; exact ih
  · have key : ∀ c' s, Ends f' c' s → ∀ c, ok c → c' = r c → Ends f c s := by
      intro c' s he
      induction he with
      | @now c' s e =>
        rintro c hc rfl
        obtain ⟨d, _, e2, e3, e4, _⟩ := wait _ c (Nat.le_refl _) hc
        apply e4
        rw [e2, e] at e3
        cases hf : f d with
        | goto x => rw [hf] at e3; cases e3
        | stuck => rw [hf] at e3; cases e3
        | halt x => rw [hf] at e3; cases e3; exact .now hf
      | @later c' d' s e _ ih =>
        rintro c hc rfl
        obtain ⟨d, e1, e2, e3, e4, _⟩ := wait _ c (Nat.le_refl _) hc
        apply e4
        rw [e2, e] at e3
        cases hf : f d with
        | goto x => rw [hf] at e3; cases e3; exact .later hf (ih x (hok _ _ e1 hf) rfl)
        | stuck => rw [hf] at e3; cases e3
        | halt x => rw [hf] at e3; cases e3
    exact fun he => key _ s he c hc rfl
  · intro he
    induction he with
    | now e =>
      rcases h _ hc with h1 | ⟨d, h1, _⟩
      · exact .now (by rw [h1, e]; rfl)
      · rw [e] at h1; cases h1
    | later e _ ih =>
      have ih := ih (hok _ _ hc e)
      rcases h _ hc with h1 | ⟨d, h1, h2, _⟩
      · exact .later (by rw [h1, e]; rfl) ih
      · rw [e] at h1; cases h1; rw [← h2]; exact ih
  · have key : ∀ c', Wrong f' c' → ∀ c, ok c → c' = r c → Wrong f c := by
      intro c' he
      induction he with
      | @now c' e =>
        rintro c hc rfl
        obtain ⟨d, _, e2, e3, _, e5⟩ := wait _ c (Nat.le_refl _) hc
        apply e5
        rw [e2, e] at e3
        cases hf : f d with
        | goto x => rw [hf] at e3; cases e3
        | stuck => exact .now hf
        | halt x => rw [hf] at e3; cases e3
      | @later c' d' e _ ih =>
        rintro c hc rfl
        obtain ⟨d, e1, e2, e3, _, e5⟩ := wait _ c (Nat.le_refl _) hc
        apply e5
        rw [e2, e] at e3
        cases hf : f d with
        | goto x => rw [hf] at e3; cases e3; exact .later hf (ih x (hok _ _ e1 hf) rfl)
        | stuck => rw [hf] at e3; cases e3
        | halt x => rw [hf] at e3; cases e3
    exact fun he => key _ he c hc rfl

/-! ### Replacing a component -/

theorem comp_set {O : Obj} {h : Option String} {H : Component} (hH : O.comp h = some H) (G : BlockList) (c : Option String) :
    (O.set h G).comp c = if c = h then some ⟨H.args, G⟩ else O.comp c := by
  cases h with
  | none =>
    cases c with
    | none =>
      have : H = ⟨[], O.main⟩ := by simpa [Obj.comp] using hH.symm
      rw [if_pos rfl, this]; rfl
    | some g => rw [if_neg (by simp)]; rfl
  | some f =>
    cases c with
    | none => rw [if_neg (by simp)]; rfl
    | some g =>
      by_cases hg : g = f
      · subst hg
        have hH' : O.fns g = some H := hH
        rw [if_pos rfl]
        show (if g = g then (O.fns g).map fun c => { c with body := G } else O.fns g) = _
        rw [if_pos rfl, hH']; rfl
      · rw [if_neg (by simpa using hg)]
        show (if g = f then (O.fns g).map fun c => { c with body := G } else O.fns g) = _
        rw [if_neg hg]; rfl

theorem fns_set {O : Obj} {h : Option String} {H : Component} (hH : O.comp h = some H) (G : BlockList) (g : String) :
    (O.set h G).fns g = if some g = h then some ⟨H.args, G⟩ else O.fns g := comp_set hH G (some g)

/-- Going to `t` from `p` in the old component corresponds to going to `t'` from `p'` in the new one. -/
def Goes (G G' : BlockList) (φ : String → List Instr → String × List Instr) (good : String → Prop) (p : Option String) (t : String)
    (p' : Option String) (t' : String) : Prop :=
  good t ∧ ∃ T T', G.get t = some T ∧ G'.get t' = some T' ∧ φ t (code T) = (t', code T') ∧
    ∀ (V : Type) (env : String → V), enter T p env = enter T' p' env

/-- The targets of two blocks correspond. -/
def GoesOpt (G G' : BlockList) (φ : String → List Instr → String × List Instr) (good : String → Prop) (p p' : Option String) :
    Option String → Option String → Prop
  | none, none => True
  | some t, some t' => Goes G G' φ good p t p' t'
  | _, _ => False

/-- The new component simulates the old one: `φ` says where a position of the old one is in the new one. Leaving a block corresponds to
leaving a block, or to nothing. -/
structure BodySim (G G' : BlockList) (φ : String → List Instr → String × List Instr) (good : String → Prop) (μ : String → Nat) : Prop where
  start : GoesOpt G G' φ good none none G.start G'.start
  instr : ∀ b i is, good b → ∃ b' is', φ b is = (b', is') ∧ φ b (i :: is) = (b', i :: is')
  leave : ∀ b, good b → ∃ B, G.get b = some B ∧
    ((∃ b' B', φ b [] = (b', []) ∧ G'.get b' = some B' ∧ B'.cond = B.cond ∧
        GoesOpt G G' φ good (some b) (some b') B.jumpTo B'.jumpTo ∧ GoesOpt G G' φ good (some b) (some b') B.fallsTo B'.fallsTo) ∨
     (∃ t T, (B.jumpTo = some t ∧ B.fallsTo = none ∨ B.jumpTo = none ∧ B.fallsTo = some t) ∧ G.get t = some T ∧ good t ∧ phis T = [] ∧
        φ t (code T) = φ b [] ∧ μ t < μ b))

/-- Where an activation is in the new object. -/
def moveFrame {V : Type} (h : Option String) (φ : String → List Instr → String × List Instr) (fr : Frame V) : Frame V :=
  if fr.comp = h then { fr with block := (φ fr.block fr.rest).1, rest := (φ fr.block fr.rest).2 } else fr

def moveStack {V : Type} (h : Option String) (φ : String → List Instr → String × List Instr) (st : List (Frame V × List String)) :
    List (Frame V × List String) := st.map fun p => (moveFrame h φ p.1, p.2)

def moveConf {V W : Type} (h : Option String) (φ : String → List Instr → String × List Instr) (c : Conf V W) : Conf V W :=
  ⟨moveFrame h φ c.cur, moveStack h φ c.stack, c.world⟩

def goodFrame {V : Type} (h : Option String) (good : String → Prop) (fr : Frame V) : Prop := fr.comp = h → good fr.block

def goodConf {V W : Type} (h : Option String) (good : String → Prop) (c : Conf V W) : Prop :=
  goodFrame h good c.cur ∧ ∀ p ∈ c.stack, goodFrame h good p.1

section
variable {O : Obj} {h : Option String} {H : Component} {G' : BlockList} {φ : String → List Instr → String × List Instr}
  {good : String → Prop} {μ : String → Nat} (hH : O.comp h = some H) (S : BodySim H.body G' φ good μ) {V W : Type}

/-- Going to a block of the component. -/
theorem goto_host {p p' : Option String} {t t' : String} (hg : Goes H.body G' φ good p t p' t') (env : String → V)
    (st : List (Frame V × List String)) (w : W) :
    goto G' h p' t' env (moveStack h φ st) w = (goto H.body h p t env st w).map (moveConf h φ) := by
  obtain ⟨_, T, T', h1, h2, h3, h4⟩ := hg
  unfold goto
  rw [h1, h2]
  simp only
  rw [← h4 V env]
  cases enter T p env with
  | none => rfl
  | some e => simp [Out.map, moveConf, moveFrame, h3]

theorem goto_good {p p' : Option String} {t t' : String} (hg : Goes H.body G' φ good p t p' t') {env : String → V}
    {st : List (Frame V × List String)} (hst : ∀ q ∈ st, goodFrame h good q.1) {w : W} {d : Conf V W}
    (hd : goto H.body h p t env st w = .goto d) : goodConf h good d := by
  obtain ⟨h0, T, T', h1, _⟩ := hg
  unfold goto at hd
  rw [h1] at hd
  simp only at hd
  cases he : enter T p env with
  | none => rw [he] at hd; cases hd
  | some e => rw [he] at hd; cases hd; exact ⟨fun _ => h0, hst⟩

/-- Going to a block of another component. -/
theorem goto_other {c : Option String} (hc : c ≠ h) {C : BlockList} (p : Option String) (t : String) (env : String → V)
    (st : List (Frame V × List String)) (w : W) :
    goto C c p t env (moveStack h φ st) w = (goto C c p t env st w).map (moveConf h φ) := by
  unfold goto
  cases C.get t with
  | none => rfl
  | some T =>
    simp only
    cases enter T p env with
    | none => rfl
    | some e => simp [Out.map, moveConf, moveFrame, hc]

theorem goto_good_other {c : Option String} (hc : c ≠ h) {C : BlockList} {p : Option String} {t : String} {env : String → V}
    {st : List (Frame V × List String)} (hst : ∀ q ∈ st, goodFrame h good q.1) {w : W} {d : Conf V W}
    (hd : goto C c p t env st w = .goto d) : goodConf h good d := by
  unfold goto at hd
  cases hT : C.get t with
  | none => rw [hT] at hd; cases hd
  | some T =>
    rw [hT] at hd
    simp only at hd
    cases he : enter T p env with
    | none => rw [he] at hd; cases hd
    | some e => rw [he] at hd; cases hd; exact ⟨fun hh => absurd hh hc, hst⟩

theorem move_other {fr : Frame V} (hc : fr.comp ≠ h) : moveFrame h φ fr = fr := if_neg hc

include hH S

/-- Calls. -/
theorem call_move (base : String → V) {F : Component} {i : Instr} (hF : O.fns i.op = some F) (is : List Instr) {c : Conf V W} {fr' : Frame V}
    (hcur : moveFrame h φ { c.cur with rest := is } = fr') :
    ∃ F', (O.set h G').fns i.op = some F' ∧ ∀ cur' : Frame V, cur'.env = c.cur.env → { cur' with rest := fr'.rest } = fr' → ∀ is', is' = fr'.rest →
      callFn base F' i is' ⟨cur', moveStack h φ c.stack, c.world⟩ = (callFn base F i is c).map (moveConf h φ) := by
  rw [fns_set hH]
  by_cases hh : some i.op = h
  · have hFH : F = H := by
      rw [← hh] at hH
      have : O.fns i.op = some H := hH
      rw [hF] at this; cases this; rfl
    subst hFH
    refine ⟨⟨F.args, G'⟩, if_pos hh, ?_⟩
    rintro cur' henv hfr is' rfl
    unfold callFn
    simp only
    by_cases hl : i.ins.length = F.args.length
    · rw [if_pos hl, if_pos hl]
      have hs := S.start
      cases h1 : F.body.start with
      | none =>
        rw [h1] at hs
        cases h2 : G'.start with
        | none => rfl
        | some s' => rw [h2] at hs; exact hs.elim
      | some s =>
        rw [h1] at hs
        cases h2 : G'.start with
        | none => rw [h2] at hs; exact hs.elim
        | some s' =>
          rw [h2] at hs
          simp only
          rw [hh, hfr, henv, ← hcur]
          exact goto_host hs _ (({ c.cur with rest := is }, i.outs) :: c.stack) c.world
    · rw [if_neg hl, if_neg hl]; rfl
  · refine ⟨F, by rw [if_neg hh, hF], ?_⟩
    rintro cur' henv hfr is' rfl
    unfold callFn
    by_cases hl : i.ins.length = F.args.length
    · rw [if_pos hl, if_pos hl]
      cases h1 : F.body.start with
      | none => rfl
      | some s =>
        simp only
        rw [hfr, henv, ← hcur]
        exact goto_other hh _ _ _ (({ c.cur with rest := is }, i.outs) :: c.stack) c.world
    · rw [if_neg hl, if_neg hl]; rfl

theorem call_good (base : String → V) {F : Component} {i : Instr} (hF : O.fns i.op = some F) (is : List Instr) {c d : Conf V W}
    (hc : goodConf h good c) (hd : callFn base F i is c = .goto d) : goodConf h good d := by
  have hst : ∀ q ∈ (({ c.cur with rest := is }, i.outs) :: c.stack : List (Frame V × List String)), goodFrame h good q.1 := by
    intro q hq
    rcases mem_cons.1 hq with rfl | hq
    · exact hc.1
    · exact hc.2 q hq
  unfold callFn at hd
  split at hd
  · cases h1 : F.body.start with
    | none => rw [h1] at hd; cases hd
    | some s =>
      rw [h1] at hd
      simp only at hd
      by_cases hh : some i.op = h
      · have hFH : F = H := by
          rw [← hh] at hH
          have : O.fns i.op = some H := hH
          rw [hF] at this; cases this; rfl
        subst hFH
        have hs := S.start
        rw [h1] at hs
        cases h2 : G'.start with
        | none => rw [h2] at hs; exact hs.elim
        | some s' =>
          rw [h2] at hs
          rw [hh] at hd
          exact goto_good hs hst hd
      · exact goto_good_other hh hst hd
  · cases hd

omit hH S in
/-- Returns. -/
theorem return_move (i : Instr) {c c' : Conf V W} (hst : c'.stack = moveStack h φ c.stack) (henv : c'.cur.env = c.cur.env) (hw : c'.world = c.world) :
    returnFn i c' = (returnFn i c).map (moveConf h φ) := by
  unfold returnFn
  rw [hst]
  cases c.stack with
  | nil => rfl
  | cons p st =>
    obtain ⟨fr, outs⟩ := p
    simp only [moveStack, map_cons]
    by_cases hl : i.ins.length = outs.length
    · rw [if_pos hl, if_pos hl, henv, hw]
      simp only [Out.map, moveConf, moveFrame, moveStack]
      split <;> rfl
    · rw [if_neg hl, if_neg hl]; rfl

/-- One step of the machine. -/
theorem step_move (sem : Sem V W) (base : String → V) {c : Conf V W} (hc : goodConf h good c) :
    step sem base (O.set h G') (moveConf h φ c) = (step sem base O c).map (moveConf h φ) ∨
      ∃ d, step sem base O c = .goto d ∧ moveConf h φ d = moveConf h φ c ∧ c.cur.comp = h ∧ c.cur.rest = [] ∧ d.cur.comp = h ∧
        μ d.cur.block < μ c.cur.block := by
  obtain ⟨⟨comp, b, rest, env⟩, stack, w⟩ := c
  by_cases hcomp : comp = h
  · subst hcomp
    have hg : good b := hc.1 rfl
    cases rest with
    | cons i is =>
      left
      obtain ⟨b', is', h1, h2⟩ := S.instr b i is hg
      unfold step
      have hmv : moveConf comp φ (⟨⟨comp, b, i :: is, env⟩, stack, w⟩ : Conf V W) = ⟨⟨comp, b', i :: is', env⟩, moveStack comp φ stack, w⟩ := by
        simp [moveConf, moveFrame, h2]
      rw [hmv]
      simp only
      rw [comp_set hH, if_pos rfl, hH]
      simp only
      cases hF : O.fns i.op with
      | some F =>
        obtain ⟨F', hF', hcall⟩ := call_move hH S base hF is (c := ⟨⟨comp, b, i :: is, env⟩, stack, w⟩) (fr' := ⟨comp, b', is', env⟩)
          (by simp [moveFrame, h1])
        rw [hF']
        exact hcall ⟨comp, b', i :: is', env⟩ rfl rfl is' rfl
      | none =>
        have hF' : (O.set comp G').fns i.op = none := by
          rw [fns_set hH, if_neg, hF]
          intro hh
          rw [← hh] at hH
          have : O.fns i.op = some H := hH
          rw [hF] at this; cases this
        rw [hF']
        simp only
        split
        · exact return_move i rfl rfl rfl
        · unfold operate
          simp only
          split
          · split
            · simp [Out.map, moveConf, moveFrame, h1]
            · rfl
          · rfl
    | nil =>
      obtain ⟨B, hB, hcase⟩ := S.leave b hg
      rcases hcase with ⟨b', B', e1, e2, e3, e4, e5⟩ | ⟨t, T, e1, e2, e3, e4, e5, e6⟩
      · left
        have hmv : moveConf comp φ (⟨⟨comp, b, [], env⟩, stack, w⟩ : Conf V W) = ⟨⟨comp, b', [], env⟩, moveStack comp φ stack, w⟩ := by
          simp [moveConf, moveFrame, e1]
        unfold step
        rw [hmv]
        simp only
        rw [comp_set hH, if_pos rfl, hH]
        simp only
        rw [hB, e2]
        unfold leaveBlock
        simp only
        cases hj : B.jumpTo with
        | none =>
          rw [hj] at e4
          cases hj' : B'.jumpTo with
          | some t' => rw [hj'] at e4; exact e4.elim
          | none =>
            cases hf : B.fallsTo with
            | none =>
              rw [hf] at e5
              cases hf' : B'.fallsTo with
              | some t' => rw [hf'] at e5; exact e5.elim
              | none => rfl
            | some u =>
              rw [hf] at e5
              cases hf' : B'.fallsTo with
              | none => rw [hf'] at e5; exact e5.elim
              | some u' =>
                rw [hf'] at e5
                exact goto_host e5 env stack w
        | some t =>
          rw [hj] at e4
          cases hj' : B'.jumpTo with
          | none => rw [hj'] at e4; exact e4.elim
          | some t' =>
            rw [hj'] at e4
            cases hf : B.fallsTo with
            | none =>
              rw [hf] at e5
              cases hf' : B'.fallsTo with
              | some t' => rw [hf'] at e5; exact e5.elim
              | none => exact goto_host e4 env stack w
            | some u =>
              rw [hf] at e5
              cases hf' : B'.fallsTo with
              | none => rw [hf'] at e5; exact e5.elim
              | some u' =>
                rw [hf'] at e5
                simp only
                rw [e3]
                cases B.cond with
                | none => rfl
                | some x =>
                  simp only
                  cases sem.truth (env x) with
                  | true => exact goto_host e4 env stack w
                  | false => exact goto_host e5 env stack w
      · right
        have hent : enter T (some b) env = some env := by
          unfold enter enterWith
          have : T.instrs.filter isPhi = [] := e4
          rw [if_pos this]
        have hgo : goto H.body comp (some b) t env stack w = .goto ⟨⟨comp, t, code T, env⟩, stack, w⟩ := by
          unfold goto
          rw [e2]
          simp only
          rw [hent]
        refine ⟨⟨⟨comp, t, code T, env⟩, stack, w⟩, ?_, ?_, rfl, rfl, rfl, e6⟩
        · unfold step
          simp only
          rw [hH]
          simp only
          rw [hB]
          unfold leaveBlock
          simp only
          rcases e1 with ⟨ej, ef⟩ | ⟨ej, ef⟩
          · rw [ej, ef]; exact hgo
          · rw [ej, ef]; exact hgo
        · simp [moveConf, moveFrame, e5]
  · left
    have hmv : moveConf h φ (⟨⟨comp, b, rest, env⟩, stack, w⟩ : Conf V W) = ⟨⟨comp, b, rest, env⟩, moveStack h φ stack, w⟩ := by
      simp [moveConf, moveFrame, hcomp]
    rw [hmv]
    unfold step
    simp only
    rw [comp_set hH, if_neg hcomp]
    cases hC : O.comp comp with
    | none => rfl
    | some C =>
      simp only
      cases rest with
      | nil =>
        simp only
        cases hB : C.body.get b with
        | none => rfl
        | some B =>
          simp only
          unfold leaveBlock
          simp only
          cases B.jumpTo with
          | none =>
            cases B.fallsTo with
            | none => rfl
            | some u => exact goto_other hcomp _ _ _ _ _
          | some t =>
            cases B.fallsTo with
            | none => exact goto_other hcomp _ _ _ _ _
            | some u =>
              cases B.cond with
              | none => rfl
              | some x => exact goto_other hcomp _ _ _ _ _
      | cons i is =>
        simp only
        cases hF : O.fns i.op with
        | some F =>
          obtain ⟨F', hF', hcall⟩ := call_move hH S base hF is (c := ⟨⟨comp, b, i :: is, env⟩, stack, w⟩) (fr' := ⟨comp, b, is, env⟩)
            (by simp [moveFrame, hcomp])
          rw [hF']
          exact hcall ⟨comp, b, i :: is, env⟩ rfl rfl is rfl
        | none =>
          have hF' : (O.set h G').fns i.op = none := by
            rw [fns_set hH, if_neg, hF]
            intro hh
            rw [← hh] at hH
            have : O.fns i.op = some H := hH
            rw [hF] at this; cases this
          rw [hF']
          simp only
          split
          · exact return_move i rfl rfl rfl
          · unfold operate
            simp only
            split
            · split
              · simp [Out.map, moveConf, moveFrame, hcomp]
              · rfl
            · rfl

theorem step_good (sem : Sem V W) (base : String → V) {c d : Conf V W} (hc : goodConf h good c) (hd : step sem base O c = .goto d) :
    goodConf h good d := by
  obtain ⟨⟨comp, b, rest, env⟩, stack, w⟩ := c
  unfold step at hd
  simp only at hd
  cases hC : O.comp comp with
  | none => rw [hC] at hd; cases hd
  | some C =>
    rw [hC] at hd
    simp only at hd
    cases rest with
    | cons i is =>
      simp only at hd
      cases hF : O.fns i.op with
      | some F => rw [hF] at hd; exact call_good hH S base hF is hc hd
      | none =>
        rw [hF] at hd
        simp only at hd
        split at hd
        · unfold returnFn at hd
          simp only at hd
          cases stack with
          | nil => cases hd
          | cons p st =>
            obtain ⟨fr, outs⟩ := p
            simp only at hd
            split at hd
            · cases hd
              exact ⟨hc.2 (fr, outs) mem_cons_self, fun q hq => hc.2 q (mem_cons_of_mem _ hq)⟩
            · cases hd
        · unfold operate at hd
          simp only at hd
          split at hd
          · split at hd
            · cases hd; exact hc
            · cases hd
          · cases hd
    | nil =>
      simp only at hd
      by_cases hcomp : comp = h
      · subst hcomp
        rw [hH] at hC
        cases hC
        have hg : good b := hc.1 rfl
        obtain ⟨B, hB, hcase⟩ := S.leave b hg
        rw [hB] at hd
        unfold leaveBlock at hd
        simp only at hd
        rcases hcase with ⟨b', B', e1, e2, e3, e4, e5⟩ | ⟨t, T, e1, e2, e3, e4, e5, e6⟩
        · cases hj : B.jumpTo with
          | none =>
            cases hf : B.fallsTo with
            | none => rw [hj, hf] at hd; cases hd
            | some u =>
              rw [hj, hf] at hd
              rw [hf] at e5
              cases hf' : B'.fallsTo with
              | none => rw [hf'] at e5; exact e5.elim
              | some u' => rw [hf'] at e5; exact goto_good e5 hc.2 hd
          | some t =>
            rw [hj] at e4
            cases hj' : B'.jumpTo with
            | none => rw [hj'] at e4; exact e4.elim
            | some t' =>
              rw [hj'] at e4
              cases hf : B.fallsTo with
              | none => rw [hj, hf] at hd; exact goto_good e4 hc.2 hd
              | some u =>
                rw [hj, hf] at hd
                rw [hf] at e5
                cases hf' : B'.fallsTo with
                | none => rw [hf'] at e5; exact e5.elim
                | some u' =>
                  rw [hf'] at e5
                  simp only at hd
                  cases hcd : B.cond with
                  | none => rw [hcd] at hd; cases hd
                  | some x =>
                    rw [hcd] at hd
                    simp only at hd
                    cases ht : sem.truth (env x) with
                    | true => rw [ht] at hd; exact goto_good e4 hc.2 hd
                    | false => rw [ht] at hd; exact goto_good e5 hc.2 hd
        · have hgt : ∀ (hd : goto H.body comp (some b) t env stack w = .goto d), goodConf comp good d := by
            intro hd
            unfold goto at hd
            rw [e2] at hd
            simp only at hd
            cases he : enter T (some b) env with
            | none => rw [he] at hd; cases hd
            | some e => rw [he] at hd; cases hd; exact ⟨fun _ => e3, hc.2⟩
          rcases e1 with ⟨ej, ef⟩ | ⟨ej, ef⟩
          · rw [ej, ef] at hd; exact hgt hd
          · rw [ej, ef] at hd; exact hgt hd
      · cases hB : C.body.get b with
        | none => rw [hB] at hd; cases hd
        | some B =>
          rw [hB] at hd
          unfold leaveBlock at hd
          simp only at hd
          cases hj : B.jumpTo with
          | none =>
            cases hf : B.fallsTo with
            | none => rw [hj, hf] at hd; cases hd
            | some u => rw [hj, hf] at hd; exact goto_good_other hcomp hc.2 hd
          | some t =>
            cases hf : B.fallsTo with
            | none => rw [hj, hf] at hd; exact goto_good_other hcomp hc.2 hd
            | some u =>
              rw [hj, hf] at hd
              simp only at hd
              cases hcd : B.cond with
              | none => rw [hcd] at hd; cases hd
              | some x => rw [hcd] at hd; exact goto_good_other hcomp hc.2 hd

/-- The start of the program. -/
theorem start_move (base : String → V) (w : W) :
    Inline.start base (O.set h G') w = (Inline.start base O w).map (moveConf h φ) ∧
      ∀ d, Inline.start base O w = .goto d → goodConf h good d := by
  have hm : (O.set h G').comp none = some ⟨[], (O.set h G').main⟩ := rfl
  have hst : ∀ q ∈ ([] : List (Frame V × List String)), goodFrame h good q.1 := by intro q hq; cases hq
  by_cases hh : none = h
  · subst hh
    have hH0 : H = ⟨[], O.main⟩ := by simpa [Obj.comp] using hH.symm
    have hmain : (O.set none G').main = G' := rfl
    have hs := S.start
    rw [hH0] at hs
    simp only at hs
    unfold Inline.start
    rw [hmain]
    cases h1 : O.main.start with
    | none =>
      rw [h1] at hs
      cases h2 : G'.start with
      | none => exact ⟨rfl, fun d hd => by cases hd⟩
      | some s' => rw [h2] at hs; exact hs.elim
    | some s =>
      rw [h1] at hs
      cases h2 : G'.start with
      | none => rw [h2] at hs; exact hs.elim
      | some s' =>
        rw [h2] at hs
        refine ⟨?_, ?_⟩
        · have := goto_host (h := none) (H := ⟨[], O.main⟩) (V := V) (W := W) hs base [] w
          exact this
        · intro d hd
          exact goto_good (h := none) (H := ⟨[], O.main⟩) hs hst hd
  · have hmain : (O.set h G').main = O.main := by
      cases h with
      | none => exact absurd rfl hh
      | some g => rfl
    unfold Inline.start
    rw [hmain]
    cases h1 : O.main.start with
    | none => exact ⟨rfl, fun d hd => by cases hd⟩
    | some s => exact ⟨goto_other hh none s base [] w, fun d hd => goto_good_other hh hst hd⟩

/-- A component that is simulated by a new one may be replaced by it. -/
theorem sameRuns_set : SameRuns O (O.set h G') := by
  intro V W sem base w
  have key := stutter (f := run sem base O w) (f' := run sem base (O.set h G') w) (Option.map (moveConf h φ))
    (fun c => ∀ d, c = some d → goodConf h good d)
    (fun c => match c with
      | some d => if d.cur.comp = h then μ d.cur.block else 0
      | none => 0) ?_ ?_ (c := none) (by intro d hd; cases hd)
  · exact key
  · intro c d hc hcd e he
    subst he
    cases c with
    | none =>
      simp only [run] at hcd
      cases hs : Inline.start base O w with
      | goto x => rw [hs] at hcd; cases hcd; exact (start_move hH S base w).2 _ hs
      | halt x => rw [hs] at hcd; cases hcd
      | stuck => rw [hs] at hcd; cases hcd
    | some c =>
      simp only [run] at hcd
      cases hs : step sem base O c with
      | goto x => rw [hs] at hcd; cases hcd; exact step_good hH S sem base (hc c rfl) hs
      | halt x => rw [hs] at hcd; cases hcd
      | stuck => rw [hs] at hcd; cases hcd
  · intro c hc
    cases c with
    | none =>
      left
      simp only [run, Option.map_none]
      rw [(start_move hH S base w).1]
      cases Inline.start base O w <;> rfl
    | some c =>
      rcases step_move hH S sem base (hc c rfl) with h1 | ⟨d, h1, h2, h3, h4, h5, h6⟩
      · left
        simp only [run, Option.map_some]
        rw [h1]
        cases step sem base O c <;> rfl
      · right
        refine ⟨some d, ?_, ?_, ?_⟩
        · simp only [run]; rw [h1]; rfl
        · simp only [Option.map_some, h2]
        · simp only [h3, h5, if_true]; exact h6

end

end Grey.Prep
