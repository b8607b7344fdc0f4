/-
Programs and assembly that can be executed: functions that the kernel can evaluate, and proofs that they do what the
specifications of Verif/Program/Spec.lean and Verif/Program/FlatSpec.lean say. They serve to give counterexamples.
-/
import Verif.Program.FlatSpec
import Verif.Sfs.BuildLemmas
namespace Grey.Program
open Grey.Layout Grey.Sfs Grey.SymExec Grey.Output

section
variable {V σ : Type} [DecidableEq V]

/-- `Interp.read`. -/
def readC (I : Interp V σ) (env : String → V) (x : String) : V :=
  if Sfs.isConst x then I.num (constNumber x) else if x = "bottom" then I.num 0 else env x

theorem readC_eq (I : Interp V σ) (env : String → V) : readC I env = I.read env := by
  funext x
  unfold readC Interp.read
  by_cases h : IsLiteral x
  · rw [if_pos ((Sfs.isConst_iff x).2 h), if_pos h]
  · rw [if_neg fun h' => h ((Sfs.isConst_iff x).1 h'), if_neg h]

/-- `Interp.ins`. -/
def insC (I : Interp V σ) (i : Ins) (env : String → V) (w : σ) : List V × σ :=
  if i.op = "LiteralAssignment" then ((i.inArgs.take 1).map fun c => I.num (constNumber c), w)
  else if i.op = "push" then (((i.lits.getD []).take 1).map fun c => I.num (constNumber c), w)
  else I.op i.name i.extra (i.inArgs.map (readC I env)) w

theorem insC_eq (I : Interp V σ) (i : Ins) (env : String → V) (w : σ) : insC I i env w = I.ins i env w := by
  unfold insC Interp.ins
  rw [readC_eq]

/-- `blockRun`. -/
def blockRunC (I : Interp V σ) : List Ins → (String → V) → σ → (String → V) × σ
  | [], env, w => (env, w)
  | i :: is, env, w => blockRunC I is (SymExec.assign env i.outArgs (insC I i env w).1) (insC I i env w).2

theorem blockRunC_eq (I : Interp V σ) (is : List Ins) (env : String → V) (w : σ) : blockRunC I is env w = blockRun I is env w := by
  induction is generalizing env w with
  | nil => rfl
  | cons i is ih => unfold blockRunC blockRun; rw [ih, insC_eq]

/-- `enter`. -/
def enterC (I : Interp V σ) (phis : List Phi) (k : Nat) (env : String → V) : String → V := fun x =>
  match phis.find? fun f => f.out == x with
  | some f => match f.args[k]? with
    | some a => readC I env a
    | none => env x
  | none => env x

theorem enterC_eq (I : Interp V σ) (phis : List Phi) (k : Nat) (env : String → V) : enterC I phis k env = enter I phis k env := by
  funext x
  unfold enterC enter
  rw [readC_eq]
  rfl

/-- `goto`. -/
def gotoC (I : Interp V σ) (f : String) (F : Fn) (B : LBlock) (target : Option String) (env : String → V)
    (frames : List (Frame V)) (w : σ) : Option (Config V σ) :=
  (target.bind F.graph.block).map fun S => ⟨f, S.id, enterC I S.phis (S.preds.idxOf B.id) env, frames, w⟩

theorem gotoC_eq (I : Interp V σ) (f : String) (F : Fn) (B : LBlock) (target : Option String) (env : String → V)
    (frames : List (Frame V)) (w : σ) : gotoC I f F B target env frames w = goto I f F B target env frames w := by
  unfold gotoC goto
  simp only [enterC_eq]

/-- `step`. -/
def stepC (P : Prog) (I : Interp V σ) (c : Config V σ) : Option (Config V σ ⊕ Halted V σ) :=
  (P.fns c.fn).bind fun F => (F.graph.block c.block).bind fun B =>
    let r := blockRunC I (F.instrs B.id) c.env c.world
    let args := (F.exitArgs B).map (readC I r.1)
    match P.exit F B with
    | .fall => (gotoC I c.fn F B B.fallsTo r.1 c.frames r.2).map .inl
    | .jump => (gotoC I c.fn F B B.jumpTo r.1 c.frames r.2).map .inl
    | .branch => (gotoC I c.fn F B (if args[1]? = some (I.num 0) then B.fallsTo else B.jumpTo) r.1 c.frames r.2).map .inl
    | .call g => (P.fns g).bind fun G =>
      if (args.drop 1).length = G.graph.inputs.length then
        some (.inl ⟨g, G.graph.start, SymExec.assign (fun _ => I.num 0) G.graph.inputs (args.drop 1), ⟨c.fn, B.id, r.1⟩ :: c.frames, r.2⟩)
      else none
    | .ret => match c.frames with
      | [] => none
      | fr :: frames => (P.fns fr.fn).bind fun F' => (F'.graph.block fr.block).bind fun B' =>
        if (args.drop 1).length = (F'.exitOuts B').length then
          (gotoC I fr.fn F' B' B'.fallsTo (SymExec.assign fr.env (F'.exitOuts B') (args.drop 1)) frames r.2).map .inl
        else none
    | .halt => some (.inr ⟨F.exitOp B, args, r.2⟩)

theorem stepC_eq (P : Prog) (I : Interp V σ) (c : Config V σ) : stepC P I c = step P I c := by
  unfold stepC step
  simp only [readC_eq, blockRunC_eq, gotoC_eq]
  congr 1
  funext F
  congr 1
  funext B
  cases P.exit F B with
  | branch => simp only; congr 2; split <;> rfl
  | _ => rfl

/-- The end of the program, if it needs at most `n` blocks. -/
def runC (P : Prog) (I : Interp V σ) : Nat → Config V σ → Option (Halted V σ)
  | 0, _ => none
  | n + 1, c => match stepC P I c with
    | some (.inl c') => runC P I n c'
    | some (.inr h) => some h
    | none => none

theorem runC_runs {P : Prog} {I : Interp V σ} {n : Nat} {c : Config V σ} {h : Halted V σ} (hr : runC P I n c = some h) :
    ∃ tr, Runs P I c tr (.inr h) := by
  induction n generalizing c with
  | zero => simp [runC] at hr
  | succ n ih =>
    unfold runC at hr
    rw [stepC_eq] at hr
    split at hr
    · rename_i c' hs
      obtain ⟨tr, ht⟩ := ih hr
      exact ⟨_, .cons hs ht⟩
    · rename_i h' hs
      cases hr
      exact ⟨_, .halt hs⟩
    · simp at hr

/-! ### The assembly -/

/-- The number of a `DUP` or `SWAP`. -/
def reachOf (pre name : String) : Option Nat := (List.range 16).find? fun n => pre ++ toString (n + 1) == name

theorem reachOf_some {pre name : String} {n : Nat} (h : reachOf pre name = some n) : n < 16 ∧ name = pre ++ toString (n + 1) := by
  unfold reachOf at h
  have h1 := List.find?_some h
  have h2 := List.mem_of_find?_eq_some h
  exact ⟨List.mem_range.1 h2, (by simpa using h1 : _ = _).symm⟩

/-- The first `n` values and the rest. -/
def splitTop (n : Nat) (s : List V) : Option (List V × List V) := if n ≤ s.length then some (s.take n, s.drop n) else none

theorem splitTop_some {n : Nat} {s a b : List V} (h : splitTop n s = some (a, b)) : s = a ++ b ∧ a.length = n := by
  unfold splitTop at h
  split at h
  · rename_i hn
    simp only [Option.some.injEq, Prod.mk.injEq] at h
    obtain ⟨rfl, rfl⟩ := h
    exact ⟨(List.take_append_drop n s).symm, by simp [hn]⟩
  · simp at h

/-- The tag that a value stands for, for a given list of tags and values. -/
def targetC (code : List Asm) (tags : List (String × V)) (v : V) : Option Nat :=
  (tags.find? fun p => p.2 = v).bind fun p => code.findIdx? fun a => a == ⟨"tag", some p.1, none⟩

theorem targetC_some {code : List Asm} {I : Interp V σ} {tags : List (String × V)} {v : V} {p : Nat}
    (ht : ∀ q ∈ tags, TagValue I q.1 q.2) (h : targetC code tags v = some p) : Target code I v p := by
  unfold targetC at h
  rw [Option.bind_eq_some_iff] at h
  obtain ⟨q, h1, h2⟩ := h
  have hq := ht q (List.mem_of_find?_eq_some h1)
  have hv : q.2 = v := by simpa using List.find?_some h1
  rw [List.findIdx?_eq_some_iff_getElem] at h2
  obtain ⟨hlt, he, _⟩ := h2
  exact ⟨q.1, by rw [List.getElem?_eq_getElem hlt]; simpa using he, hv ▸ hq⟩

def isControl (name : String) : Bool := controlOps.contains name
def isHalt (name : String) : Bool := haltOps.contains name

/-- One item. -/
def fstepC (code : List Asm) (I : Interp V σ) (arity : String → Nat) (tags : List (String × V)) (s : FState V σ) :
    Option (FState V σ ⊕ Halted V σ) :=
  match code[s.pc]? with
  | none => none
  | some ⟨name, value, _⟩ =>
    if name = "PUSH" then value.map fun v => .inl ⟨s.pc + 1, I.num (hexNumber v.toList) :: s.stack, s.world⟩
    else if name = "PUSH [tag]" then value.map fun t =>
      .inl ⟨s.pc + 1, (I.op "PUSH [TAG]" (some [t]) [] s.world).1 ++ s.stack, (I.op "PUSH [TAG]" (some [t]) [] s.world).2⟩
    else if name = "tag" then value.map fun _ => .inl ⟨s.pc + 1, s.stack, s.world⟩
    else if !isControl name then
      (splitTop (arity name) s.stack).map fun p =>
        .inl ⟨s.pc + 1, (I.op name (value.map fun x => [x]) p.1 s.world).1 ++ p.2, (I.op name (value.map fun x => [x]) p.1 s.world).2⟩
    else if value ≠ none then none
    else if isHalt name then (splitTop (arity name) s.stack).map fun p => .inr ⟨name, p.1, s.world⟩
    else if name = "POP" then match s.stack with
      | [] => none
      | _ :: st => some (.inl ⟨s.pc + 1, st, s.world⟩)
    else if name = "JUMPDEST" then some (.inl ⟨s.pc + 1, s.stack, s.world⟩)
    else if name = "JUMP" then match s.stack with
      | [] => none
      | v :: st => (targetC code tags v).map fun p => .inl ⟨p, st, s.world⟩
    else if name = "JUMPI" then match s.stack with
      | v :: c :: st => if c = I.num 0 then some (.inl ⟨s.pc + 1, st, s.world⟩) else (targetC code tags v).map fun p => .inl ⟨p, st, s.world⟩
      | _ => none
    else match reachOf "DUP" name with
      | some n => match splitTop n s.stack with
        | some (_, y :: _) => some (.inl ⟨s.pc + 1, y :: s.stack, s.world⟩)
        | _ => none
      | none => match reachOf "SWAP" name with
        | some n => match s.stack with
          | [] => none
          | x :: st => match splitTop n st with
            | some (a, y :: b) => some (.inl ⟨s.pc + 1, y :: (a ++ x :: b), s.world⟩)
            | _ => none
        | none => none

theorem fstepC_some {code : List Asm} {I : Interp V σ} {arity : String → Nat} {tags : List (String × V)} {s : FState V σ}
    {x : FState V σ ⊕ Halted V σ} (ht : ∀ q ∈ tags, TagValue I q.1 q.2) (h : fstepC code I arity tags s = some x) :
    FStep code I arity s x := by
  obtain ⟨pc, st, w⟩ := s
  unfold fstepC at h
  simp only at h
  split at h
  · simp at h
  rename_i name value j hc
  by_cases hh : name = "PUSH"
  · rw [if_pos hh] at h; subst hh
    obtain ⟨v, rfl, rfl⟩ := Option.map_eq_some_iff.1 h
    exact .push hc
  rw [if_neg hh] at h
  by_cases hh : name = "PUSH [tag]"
  · rw [if_pos hh] at h; subst hh
    obtain ⟨v, rfl, rfl⟩ := Option.map_eq_some_iff.1 h
    exact .pushTag hc
  rw [if_neg hh] at h
  by_cases hh : name = "tag"
  · rw [if_pos hh] at h; subst hh
    obtain ⟨v, rfl, rfl⟩ := Option.map_eq_some_iff.1 h
    exact .tag hc
  rw [if_neg hh] at h
  by_cases hh : (!isControl name) = true
  · rw [if_pos hh] at h
    obtain ⟨⟨a, b⟩, hp, rfl⟩ := Option.map_eq_some_iff.1 h
    obtain ⟨rfl, hl⟩ := splitTop_some hp
    exact .op hc (by simpa [isControl] using hh) hl
  rw [if_neg hh] at h
  by_cases hh : value ≠ none
  · rw [if_pos hh] at h
    simp at h
  rw [if_neg hh] at h
  have hv : value = none := by simpa using hh
  subst hv
  by_cases hh : isHalt name = true
  · rw [if_pos hh] at h
    obtain ⟨⟨a, b⟩, hp, rfl⟩ := Option.map_eq_some_iff.1 h
    obtain ⟨rfl, hl⟩ := splitTop_some hp
    exact .halt hc (by simpa [isHalt] using hh) hl
  rw [if_neg hh] at h
  by_cases hh : name = "POP"
  · rw [if_pos hh] at h; subst hh
    split at h
    · simp at h
    · cases h; exact .pop hc
  rw [if_neg hh] at h
  by_cases hh : name = "JUMPDEST"
  · rw [if_pos hh] at h; subst hh
    cases h; exact .jumpdest hc
  rw [if_neg hh] at h
  by_cases hh : name = "JUMP"
  · rw [if_pos hh] at h; subst hh
    split at h
    · simp at h
    · obtain ⟨p, hp, rfl⟩ := Option.map_eq_some_iff.1 h
      exact .jump hc (targetC_some ht hp)
  rw [if_neg hh] at h
  by_cases hh : name = "JUMPI"
  · rw [if_pos hh] at h; subst hh
    split at h
    · split at h
      · rename_i e; subst e
        cases h; exact .notTaken hc
      · rename_i hne
        obtain ⟨p, hp, rfl⟩ := Option.map_eq_some_iff.1 h
        exact .taken hc hne (targetC_some ht hp)
    · simp at h
  rw [if_neg hh] at h
  split at h
  · rename_i n hn
    obtain ⟨hlt, rfl⟩ := reachOf_some hn
    split at h
    · rename_i a y b hs
      obtain ⟨rfl, rfl⟩ := splitTop_some hs
      cases h
      exact .dup hlt hc
    · simp at h
  split at h
  · rename_i n hn
    obtain ⟨hlt, rfl⟩ := reachOf_some hn
    split at h
    · simp at h
    split at h
    · rename_i a y b hs
      obtain ⟨rfl, rfl⟩ := splitTop_some hs
      cases h
      exact .swap hlt hc
    · simp at h
  · simp at h

/-- The end of the assembly, if it needs at most `n` items. -/
def frunC (code : List Asm) (I : Interp V σ) (arity : String → Nat) (tags : List (String × V)) : Nat → FState V σ → Option (Halted V σ)
  | 0, _ => none
  | n + 1, s => match fstepC code I arity tags s with
    | some (.inl s') => frunC code I arity tags n s'
    | some (.inr h) => some h
    | none => none

theorem frunC_runs {code : List Asm} {I : Interp V σ} {arity : String → Nat} {tags : List (String × V)} {n : Nat} {s : FState V σ}
    {h : Halted V σ} (ht : ∀ q ∈ tags, TagValue I q.1 q.2) (hr : frunC code I arity tags n s = some h) :
    ∃ m, FRuns code I arity s m (.inr h) := by
  induction n generalizing s with
  | zero => simp [frunC] at hr
  | succ n ih =>
    unfold frunC at hr
    split at hr
    · rename_i s' hs
      obtain ⟨m, hm⟩ := ih hr
      exact ⟨_, .cons (fstepC_some ht hs) hm⟩
    · rename_i h' hs
      cases hr
      exact ⟨_, .halt (fstepC_some ht hs)⟩
    · simp at hr

end
end Grey.Program
