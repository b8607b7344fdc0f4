/-
The order of the blocks in the generated assembly (src/solution_generation/reconstruct_bytecode.py): C33.
-/
import Verif.Common.Graph
import Verif.Output.Asm
import Mathlib.Tactic.ByContra
namespace Grey.Output
open List

/-! ### Model -/

/-- How a block ends (`get_jump_type`, with `get_jump_to` and `get_falls_to`). A `sub_block` is a block that ends with a call and continues with the block after
the call. -/
inductive Exit
  | conditional (jump falls : String)
  | unconditional (jump : String)
  | fallsTo (falls : String)
  | subBlock (falls : String)
  | terminal
  | functionReturn
  | mainExit
  | other
  deriving DecidableEq, Repr

/-- What the generation uses of a block: the instructions obtained from its schedule and from its last instruction, `asm_block + asm_last`
(src/solution_generation/reconstruct_bytecode.py:215-236), its tag and its exit. A block of type `sub_block` always ends with a call of a function,
so `generate_asm_split_blocks` (lines 114-149) combines nothing. -/
structure Block where
  body : List Asm
  tag : Option String
  exit : Exit
  deriving DecidableEq, Repr

/-- The blocks (`block_list.get_blocks_dict()`). -/
abbrev Blocks := String → Option Block

/-- The code of a block: the tag (src/solution_generation/reconstruct_bytecode.py:238-241), its instructions and the final `STOP` of the main program
(lines 280-282). -/
def Block.code (b : Block) : List Asm :=
  (b.tag.toList.flatMap fun t => [asmOf "tag" (some t), asmOf "JUMPDEST"]) ++ b.body ++ (if b.exit = .mainExit then [asmOf "STOP"] else [])

/-- `pending_blocks` (the last element first), `visited`, and the lists `asm_instructions` and `init_pos_dict` zipped: each instruction with
the block it belongs to. -/
structure Gen where
  pending : List String
  visited : List String
  code : List (String × Asm)
  deriving DecidableEq, Repr

/-- `if jump_to not in visited: pending_blocks.append(..)` (src/solution_generation/reconstruct_bytecode.py:253-254, 269-270). -/
def pushJump (j : String) (s : Gen) : Gen := if j ∈ s.visited then s else { s with pending := j :: s.pending }

/-- `locate_fallsto_block` (src/solution_generation/reconstruct_bytecode.py:152-171) for the block `b` with the given code and the target `d`. -/
def locate (b d : String) (code : List Asm) (s : Gen) : Gen :=
  if s.code.any fun p => decide (p.1 = d) then
    let pos := s.code.findIdx fun p => decide (p.1 = d)
    { s with code := s.code.take pos ++ code.map (fun i => (b, i)) ++ s.code.drop pos }
  else { s with code := s.code ++ code.map (fun i => (b, i)), pending := d :: s.pending }

/-- `asm_instructions += asm_block` (src/solution_generation/reconstruct_bytecode.py:261, 276, 280). -/
def append (b : String) (code : List Asm) (s : Gen) : Gen := { s with code := s.code ++ code.map fun i => (b, i) }

/-- The body of the loop for the block `b` that was taken from the pending blocks (src/solution_generation/reconstruct_bytecode.py:205-286).
`none`: an exception is raised. -/
def genStep (B : Blocks) (b : String) (s : Gen) : Option Gen :=
  (B b).bind fun x =>
    let s := { s with visited := b :: s.visited }
    match x.exit with
    | .conditional j f => if (B j).isSome ∧ (B f).isSome then some (locate b f x.code (pushJump j s)) else none
    | .unconditional j => if (B j).isSome then some (pushJump j (append b x.code s)) else none
    | .fallsTo f => if (B f).isSome then some (locate b f x.code s) else none
    | .subBlock f => if (B f).isSome then some (locate b f x.code s) else none
    | .terminal => some (append b x.code s)
    | .functionReturn => some (append b x.code s)
    | .mainExit => some (append b x.code s)
    | .other => none

/-- The loop (src/solution_generation/reconstruct_bytecode.py:202-286). `none`: an exception, or still running after the given number of
iterations. -/
def genLoop (B : Blocks) : Nat → Gen → Option (List (String × Asm))
  | f, s =>
    match s.pending, f with
    | [], _ => some s.code
    | _ :: _, 0 => none
    | b :: rest, f + 1 => (genStep B b { s with pending := rest }).bind (genLoop B f)

/-- `traverse_cfg_block_list` (src/solution_generation/reconstruct_bytecode.py:181-300) without the drawing of the graph: the instructions, each with its
block. -/
def generate (B : Blocks) (fuel : Nat) (start : String) : Option (List (String × Asm)) := genLoop B fuel ⟨[start], [], []⟩

/-! ### Specification -/

/-- The block to which control passes without a jump. -/
def fallsTo (B : Blocks) (b : String) : Option String := (B b).bind fun x => match x.exit with
  | .conditional _ f => some f
  | .fallsTo f => some f
  | .subBlock f => some f
  | _ => none

/-- The block to which the block jumps. -/
def jumpsTo (B : Blocks) (b : String) : Option String := (B b).bind fun x => match x.exit with
  | .conditional j _ => some j
  | .unconditional j => some j
  | _ => none

/-- `y` is a successor of `x`. -/
def Succ (B : Blocks) (x y : String) : Prop := fallsTo B x = some y ∨ jumpsTo B x = some y

/-- `y` can be reached from `start` through blocks that satisfy `P`. -/
inductive ReachVia (B : Blocks) (P : String → Prop) (start : String) : String → Prop
  | refl : ReachVia B P start start
  | step (x y : String) : ReachVia B P start x → P x → Succ B x y → ReachVia B P start y

/-- The text of a block: its label, when it has one, with the instruction that marks a jump destination, then its instructions, then the end of the program
when the block is the end of the main code. -/
def Block.text (b : Block) : List Asm :=
  match b.tag, b.exit with
  | some t, .mainExit => ⟨"tag", some (upper t), none⟩ :: ⟨"JUMPDEST", none, none⟩ :: (b.body ++ [⟨"STOP", none, none⟩])
  | some t, _ => ⟨"tag", some (upper t), none⟩ :: ⟨"JUMPDEST", none, none⟩ :: b.body
  | none, .mainExit => b.body ++ [⟨"STOP", none, none⟩]
  | none, _ => b.body

/-- The code is the concatenation of the texts of the blocks in `order`, each instruction with its block. -/
def codeOf (B : Blocks) (order : List String) : List (String × Asm) :=
  order.flatMap fun b => ((B b).toList.flatMap Block.text).map fun i => (b, i)

/-- The assumptions on the graph. `finite`: there are finitely many blocks, closed under successors and free of unknown exits; `nonempty`: no block without
instructions; `oneFall`: no two blocks fall to the same block, and none to itself; `condJump`: the block a conditional block jumps to has no other
predecessor; `chain`: if a block that is fallen to falls to a block `d`, then `d` can only be reached through it. -/
structure Good (B : Blocks) (start : String) (nodes : List String) : Prop where
  inNodes : start ∈ nodes
  finite : ∀ b ∈ nodes, (∃ x, B b = some x ∧ x.exit ≠ .other) ∧ ∀ c, Succ B b c → c ∈ nodes
  nonempty : ∀ b x, B b = some x → x.code ≠ []
  oneFall : ∀ b c d, fallsTo B b = some d → fallsTo B c = some d → b = c
  noSelf : ∀ b, fallsTo B b ≠ some b
  condJump : ∀ b j d, jumpsTo B b = some j → fallsTo B b = some d → (∀ c, fallsTo B c ≠ some j) ∧ ∀ c, jumpsTo B c = some j → c = b
  chain : ∀ b c d, fallsTo B b = some c → fallsTo B c = some d → ¬ ReachVia B (· ≠ c) start d

/-! ### Lemmas -/

theorem codeOf_append (B : Blocks) (a b : List String) : codeOf B (a ++ b) = codeOf B a ++ codeOf B b := by simp [codeOf]

theorem code_eq_text (b : Block) : b.code = b.text := by
  obtain ⟨body, tag, exit⟩ := b
  cases tag <;> cases exit <;> simp [Block.code, Block.text, asmOf]

theorem codeOf_single {B : Blocks} {b : String} {x : Block} (h : B b = some x) : codeOf B [b] = x.code.map fun i => (b, i) := by
  simp [codeOf, h, code_eq_text]

theorem mem_codeOf_fst {B : Blocks} {order : List String} {p : String × Asm} (h : p ∈ codeOf B order) : p.1 ∈ order := by
  simp only [codeOf, mem_flatMap, mem_map] at h
  obtain ⟨b, hb, i, _, rfl⟩ := h
  exact hb

theorem any_codeOf {B : Blocks} {order : List String} {d : String} (hne : ∀ b ∈ order, ∃ x, B b = some x ∧ x.code ≠ []) :
    ((codeOf B order).any fun p => decide (p.1 = d)) = true ↔ d ∈ order := by
  rw [any_eq_true]
  constructor
  · rintro ⟨p, hp, he⟩
    have := mem_codeOf_fst hp
    simpa [of_decide_eq_true he] using this
  · intro hd
    obtain ⟨x, hx, hc⟩ := hne d hd
    obtain ⟨i, hi⟩ := exists_mem_of_ne_nil _ (code_eq_text x ▸ hc)
    refine ⟨(d, i), ?_, by simp⟩
    simp only [codeOf, mem_flatMap, mem_map]
    exact ⟨d, hd, i, ⟨x, by simp [hx], hi⟩, rfl⟩

theorem findIdx_codeOf {B : Blocks} {a c : List String} {d : String} (hd : d ∉ a) (hne : ∃ x, B d = some x ∧ x.code ≠ []) :
    (codeOf B (a ++ d :: c)).findIdx (fun p => decide (p.1 = d)) = (codeOf B a).length := by
  obtain ⟨x, hx, hc⟩ := hne
  rw [codeOf_append, findIdx_append]
  have h1 : ¬ (codeOf B a).findIdx (fun p => decide (p.1 = d)) < (codeOf B a).length := by
    rw [findIdx_lt_length]
    rintro ⟨p, hp, he⟩
    exact hd (of_decide_eq_true he ▸ mem_codeOf_fst hp)
  rw [if_neg h1]
  have h2 : codeOf B (d :: c) = x.code.map (fun i => (d, i)) ++ codeOf B c := by
    rw [← codeOf_single hx, ← codeOf_append]; rfl
  rw [h2]
  obtain ⟨i, l, hl⟩ := exists_cons_of_ne_nil hc
  rw [hl]
  simp [findIdx_cons]

/-- The order of blocks, and whether the first pending block has to follow the last block of the order. -/
structure OInv (B : Blocks) (start : String) (s : Gen) (order : List String) : Prop where
  code : s.code = codeOf B order
  blocks : ∀ b ∈ order, ∃ x, B b = some x ∧ x.code ≠ []
  nodup : order.Nodup
  visited : ∀ b, b ∈ s.visited ↔ b ∈ order
  pnodup : s.pending.Nodup
  fresh : ∀ b ∈ s.pending, b ∉ order
  rest : ∀ b ∈ s.pending.tail, ∃ c d, jumpsTo B c = some b ∧ fallsTo B c = some d ∧ c ∈ order
  fall : ∀ c d, c ∈ order → fallsTo B c = some d →
    (∃ l r, order = l ++ c :: d :: r) ∨ (s.pending.head? = some d ∧ ∃ l, order = l ++ [c])
  reach : ∀ b, b ∈ order ∨ b ∈ s.pending → ReachVia B (· ∈ order) start b
  succs : ∀ b ∈ order, ∀ c, Succ B b c → c ∈ order ∨ c ∈ s.pending

theorem ReachVia.mono {B : Blocks} {P Q : String → Prop} {start y : String} (h : ReachVia B P start y) (hPQ : ∀ x, P x → Q x) :
    ReachVia B Q start y := by
  induction h with
  | refl => exact .refl
  | step x y _ hp hs ih => exact .step x y ih (hPQ x hp) hs

theorem adjacent_insert {l r l1 r1 : List String} {b c d f : String} (h : l1 ++ c :: d :: r1 = l ++ f :: r) (hdf : d ≠ f) :
    ∃ l2 r2, l ++ b :: f :: r = l2 ++ c :: d :: r2 := by
  rcases append_eq_append_iff.1 h with ⟨as, h1, h2⟩ | ⟨bs, h1, h2⟩
  · match as, h1, h2 with
    | [], h1, h2 =>
      simp only [nil_append, cons.injEq] at h2
      exact ⟨l ++ [b], r1, by rw [← h2.1, ← h2.2]; simp⟩
    | [_], h1, h2 =>
      simp only [cons_append, nil_append, cons.injEq] at h2
      exact absurd h2.2.1 hdf
    | _ :: _ :: as, h1, h2 =>
      simp only [cons_append, cons.injEq] at h2
      refine ⟨l1, as ++ b :: f :: r, ?_⟩
      rw [h1, h2.1, h2.2.1]
      simp
  · match bs, h1, h2 with
    | [], h1, h2 =>
      simp only [nil_append, cons.injEq] at h2
      exact ⟨l ++ [b], r1, by rw [h2.1, h2.2]; simp⟩
    | _ :: bs, h1, h2 =>
      simp only [cons_append, cons.injEq] at h2
      refine ⟨l ++ b :: f :: bs, r1, ?_⟩
      rw [h2.2]
      simp

theorem place {B : Blocks} {start : String} {nodes : List String} (hG : Good B start nodes) {s s' : Gen} {order order' : List String} {b : String}
    {x : Block} {rest new : List String} (hI : OInv B start s order) (hp : s.pending = b :: rest) (hx : B b = some x) (hp' : s'.pending = new ++ rest)
    (hv' : s'.visited = b :: s.visited) (hc' : s'.code = codeOf B order') (hperm : order' ~ b :: order)
    (hnew : ∀ c ∈ new, c ∉ order' ∧ Succ B b c) (hnn : new.Nodup)
    (htail : ∀ c ∈ new.tail, ∃ d, jumpsTo B b = some c ∧ fallsTo B b = some d)
    (hsucc : ∀ c, Succ B b c → c ∈ order' ∨ c ∈ new)
    (hfall : ∀ c d, c ∈ order' → fallsTo B c = some d →
      (∃ l r, order' = l ++ c :: d :: r) ∨ (s'.pending.head? = some d ∧ ∃ l, order' = l ++ [c])) : OInv B start s' order' := by
  have hb : b ∉ order := hI.fresh b (by simp [hp])
  have hmem : ∀ c, c ∈ order' ↔ c = b ∨ c ∈ order := fun c => by rw [hperm.mem_iff, mem_cons]
  have hbr : b ∉ rest := by have := hI.pnodup; rw [hp, nodup_cons] at this; exact this.1
  have hrn : rest.Nodup := by have := hI.pnodup; rw [hp, nodup_cons] at this; exact this.2
  have hrest : ∀ y ∈ rest, ∃ c d, jumpsTo B c = some y ∧ fallsTo B c = some d ∧ c ∈ order := fun y hy => hI.rest y (by simpa [hp] using hy)
  have hnr : ∀ c ∈ new, c ∉ rest := by
    intro c hc hr
    obtain ⟨e, d, h1, h2, h3⟩ := hrest c hr
    obtain ⟨g1, g2⟩ := hG.condJump e c d h1 h2
    rcases (hnew c hc).2 with h | h
    · exact g1 b h
    · exact hb (g2 b h ▸ h3)
  refine ⟨hc', ?_, ?_, ?_, ?_, ?_, ?_, hfall, ?_, ?_⟩
  · intro c hc
    rcases (hmem c).1 hc with rfl | hc
    · exact ⟨x, hx, hG.nonempty _ x hx⟩
    · exact hI.blocks c hc
  · exact hperm.nodup_iff.2 (nodup_cons.2 ⟨hb, hI.nodup⟩)
  · intro c; rw [hv', hmem, mem_cons, hI.visited]
  · rw [hp', nodup_append]
    exact ⟨hnn, hrn, fun a ha a' ha' e => hnr a ha (e ▸ ha')⟩
  · intro c hc
    rw [hp', mem_append] at hc
    rcases hc with hc | hc
    · exact (hnew c hc).1
    · rw [hmem]
      rintro (rfl | h)
      · exact hbr hc
      · exact hI.fresh c (by simp [hp, hc]) h
  · intro c hc
    have : c ∈ new.tail ∨ c ∈ rest := by
      rw [hp'] at hc
      cases new with
      | nil => right; exact mem_of_mem_tail hc
      | cons a new => simp only [cons_append, tail_cons, mem_append] at hc ⊢; exact hc
    rcases this with h | h
    · obtain ⟨d, h1, h2⟩ := htail c h
      exact ⟨b, d, h1, h2, (hmem b).2 (.inl rfl)⟩
    · obtain ⟨e, d, h1, h2, h3⟩ := hrest c h
      exact ⟨e, d, h1, h2, (hmem e).2 (.inr h3)⟩
  · intro c hc
    have old : ∀ y, y ∈ order ∨ y ∈ s.pending → ReachVia B (· ∈ order') start y :=
      fun y hy => (hI.reach y hy).mono fun z hz => (hmem z).2 (.inr hz)
    have hbreach : ReachVia B (· ∈ order') start b := old b (.inr (by simp [hp]))
    rcases hc with hc | hc
    · rcases (hmem c).1 hc with rfl | hc
      · exact hbreach
      · exact old c (.inl hc)
    · rw [hp', mem_append] at hc
      rcases hc with hc | hc
      · exact .step b c hbreach ((hmem b).2 (.inl rfl)) (hnew c hc).2
      · exact old c (.inr (by simp [hp, hc]))
  · intro c hc e he
    rw [hp', mem_append]
    rcases (hmem c).1 hc with rfl | hc
    · rcases hsucc e he with h | h
      · exact .inl h
      · exact .inr (.inl h)
    · rcases hI.succs c hc e he with h | h
      · exact .inl ((hmem e).2 (.inr h))
      · rw [hp, mem_cons] at h
        rcases h with rfl | h
        · exact .inl ((hmem _).2 (.inl rfl))
        · exact .inr (.inr h)

/-- Appending keeps what falls through where it is. -/
theorem fall_append {B : Blocks} {start : String} {s : Gen} {order : List String} {b : String} {rest new : List String}
    (hI : OInv B start s order) (hp : s.pending = b :: rest)
    (hb : ∀ d, fallsTo B b = some d → new.head? = some d) : ∀ c d, c ∈ order ++ [b] → fallsTo B c = some d →
      (∃ l r, order ++ [b] = l ++ c :: d :: r) ∨ ((new ++ rest).head? = some d ∧ ∃ l, order ++ [b] = l ++ [c]) := by
  intro c d hc hd
  rcases mem_append.1 hc with hc | hc
  · left
    rcases hI.fall c d hc hd with ⟨l, r, h⟩ | ⟨h1, l, h2⟩
    · exact ⟨l, r ++ [b], by rw [h]; simp⟩
    · rw [hp] at h1
      simp only [head?_cons, Option.some.injEq] at h1
      exact ⟨l, [], by rw [h2, h1]; simp⟩
  · obtain rfl := mem_singleton.1 hc
    right
    refine ⟨?_, order, rfl⟩
    have := hb d hd
    cases new with
    | nil => simp at this
    | cons a new => simpa using this

theorem fall_insert {B : Blocks} {start : String} {nodes : List String} (hG : Good B start nodes) {s : Gen} {l r : List String} {b f : String}
    {rest new : List String} (hI : OInv B start s (l ++ f :: r)) (hp : s.pending = b :: rest) (hbf : fallsTo B b = some f) :
    ∀ c d, c ∈ l ++ b :: f :: r → fallsTo B c = some d →
      (∃ l2 r2, l ++ b :: f :: r = l2 ++ c :: d :: r2) ∨ ((new ++ rest).head? = some d ∧ ∃ l2, l ++ b :: f :: r = l2 ++ [c]) := by
  have hb : b ∉ l ++ f :: r := hI.fresh b (by simp [hp])
  intro c d hc hd
  left
  by_cases hcb : c = b
  · subst hcb
    rw [hbf] at hd
    cases hd
    exact ⟨l, r, rfl⟩
  · have hc : c ∈ l ++ f :: r := by
      simp only [mem_append, mem_cons] at hc ⊢
      rcases hc with h | h | h | h
      · exact .inl h
      · exact absurd h hcb
      · exact .inr (.inl h)
      · exact .inr (.inr h)
    have hdf : d ≠ f := fun e => hcb (hG.oneFall c b f (e ▸ hd) hbf)
    rcases hI.fall c d hc hd with ⟨l1, r1, h⟩ | ⟨h1, _⟩
    · exact adjacent_insert h.symm hdf
    · exfalso
      rw [hp] at h1
      simp only [head?_cons, Option.some.injEq] at h1
      subst h1
      refine hG.chain c b f hd hbf ((hI.reach f (.inl (by simp))).mono ?_)
      rintro z hz rfl
      exact hb hz

theorem locate_eq {B : Blocks} {b f : String} {x : Block} {s : Gen} {order : List String} (hc : s.code = codeOf B order) (hx : B b = some x)
    (hne : ∀ b ∈ order, ∃ x, B b = some x ∧ x.code ≠ []) :
    (∃ l r, order = l ++ f :: r ∧ f ∉ l ∧ locate b f x.code s = { s with code := codeOf B (l ++ b :: f :: r) }) ∨
    (f ∉ order ∧ locate b f x.code s = { s with code := codeOf B (order ++ [b]), pending := f :: s.pending }) := by
  unfold locate
  by_cases hf : f ∈ order
  · left
    obtain ⟨l, r, hl, hfl⟩ := eq_append_cons_of_mem hf
    refine ⟨l, r, hl, hfl, ?_⟩
    rw [if_pos (by rw [hc]; exact (any_codeOf hne).2 hf)]
    simp only
    congr 1
    rw [hc, hl, findIdx_codeOf hfl (hne f hf)]
    rw [show l ++ b :: f :: r = l ++ [b] ++ f :: r by simp, codeOf_append B (l ++ [b]), codeOf_append B l [b], codeOf_single hx, codeOf_append B l (f :: r)]
    simp
  · right
    refine ⟨hf, ?_⟩
    rw [if_neg (by rw [hc, any_codeOf hne]; exact hf)]
    congr 1
    rw [codeOf_append, codeOf_single hx, hc]

/-- A block that falls to `f` and, if `j` is given, jumps to `j`. -/
theorem step_locate {B : Blocks} {start : String} {nodes : List String} (hG : Good B start nodes) {s : Gen} {order : List String} {b f : String}
    {x : Block} {rest : List String} (hI : OInv B start s order) (hp : s.pending = b :: rest) (hx : B b = some x) (hbf : fallsTo B b = some f)
    {new : List String} (hjn : ∀ j, jumpsTo B b = some j → j ∈ order ∨ j = b ∨ j ∈ new)
    (hnew : ∀ j ∈ new, j ∉ order ∧ j ≠ b ∧ jumpsTo B b = some j) (hnn : new.Nodup) :
    ∃ order', OInv B start (locate b f x.code ⟨new ++ rest, b :: s.visited, s.code⟩) order' ∧ order' ~ b :: order := by
  have hb : b ∉ order := hI.fresh b (by simp [hp])
  rcases locate_eq (s := ⟨new ++ rest, b :: s.visited, s.code⟩) (f := f) hI.code hx hI.blocks with ⟨l, r, hl, hfl, he⟩ | ⟨hf, he⟩
  · subst hl
    have hperm : l ++ b :: f :: r ~ b :: (l ++ f :: r) := perm_middle
    refine ⟨l ++ b :: f :: r, ?_, hperm⟩
    rw [he]
    refine place hG (new := new) hI hp hx rfl rfl rfl hperm ?_ hnn ?_ ?_ ?_
    · intro c hc
      obtain ⟨h1, h2, h3⟩ := hnew c hc
      refine ⟨?_, .inr h3⟩
      rw [hperm.mem_iff, mem_cons]
      rintro (h | h)
      · exact h2 h
      · exact h1 h
    · intro c hc
      exact ⟨f, (hnew c (mem_of_mem_tail hc)).2.2, hbf⟩
    · intro c hc
      rw [hperm.mem_iff, mem_cons]
      rcases hc with h | h
      · rw [hbf] at h; cases h; left; right; simp
      · rcases hjn c h with h | h | h
        · exact .inl (.inr h)
        · exact .inl (.inl h)
        · exact .inr h
    · exact fall_insert hG hI hp hbf
  · have hperm : order ++ [b] ~ b :: order := perm_append_singleton _ _
    refine ⟨order ++ [b], ?_, hperm⟩
    rw [he]
    refine place hG (new := f :: new) hI hp hx rfl rfl rfl hperm ?_ ?_ ?_ ?_ ?_
    · intro c hc
      rw [hperm.mem_iff, mem_cons]
      rcases mem_cons.1 hc with rfl | hc
      · refine ⟨?_, .inl hbf⟩
        rintro (h | h)
        · exact hG.noSelf b (h ▸ hbf)
        · exact hf h
      · obtain ⟨h1, h2, h3⟩ := hnew c hc
        refine ⟨?_, .inr h3⟩
        rintro (h | h)
        · exact h2 h
        · exact h1 h
    · refine nodup_cons.2 ⟨fun h => ?_, hnn⟩
      exact (hG.condJump b f f (hnew f h).2.2 hbf).1 b hbf
    · intro c hc
      exact ⟨f, (hnew c hc).2.2, hbf⟩
    · intro c hc
      rw [hperm.mem_iff, mem_cons]
      rcases hc with h | h
      · rw [hbf] at h; cases h; right; exact mem_cons_self
      · rcases hjn c h with h | h | h
        · exact .inl (.inr h)
        · exact .inl (.inl h)
        · exact .inr (mem_cons_of_mem _ h)
    · exact fall_append (new := f :: new) hI hp (by intro d hd; rw [hbf] at hd; cases hd; rfl)

/-- A block that does not fall through. -/
theorem step_append {B : Blocks} {start : String} {nodes : List String} (hG : Good B start nodes) {s : Gen} {order : List String} {b : String}
    {x : Block} {rest : List String} (hI : OInv B start s order) (hp : s.pending = b :: rest) (hx : B b = some x) (hbf : fallsTo B b = none)
    {new : List String} (hjn : ∀ j, jumpsTo B b = some j → j ∈ order ∨ j = b ∨ j ∈ new)
    (hnew : ∀ j ∈ new, j ∉ order ∧ j ≠ b ∧ jumpsTo B b = some j) (hone : new.length ≤ 1) :
    ∃ order', OInv B start ⟨new ++ rest, b :: s.visited, s.code ++ x.code.map fun i => (b, i)⟩ order' ∧ order' ~ b :: order := by
  have hperm : order ++ [b] ~ b :: order := perm_append_singleton _ _
  refine ⟨order ++ [b], ?_, hperm⟩
  refine place hG (new := new) hI hp hx rfl rfl ?_ hperm ?_ ?_ ?_ ?_ ?_
  · rw [codeOf_append, codeOf_single hx, hI.code]
  · intro c hc
    obtain ⟨h1, h2, h3⟩ := hnew c hc
    refine ⟨?_, .inr h3⟩
    rw [hperm.mem_iff, mem_cons]
    rintro (h | h)
    · exact h2 h
    · exact h1 h
  · match new, hone with
    | [], _ => simp
    | [a], _ => simp
  · intro c hc
    match new, hone, hc with
    | [], _, hc => simp at hc
    | [a], _, hc => simp at hc
  · intro c hc
    rw [hperm.mem_iff, mem_cons]
    rcases hc with h | h
    · rw [hbf] at h; cases h
    · rcases hjn c h with h | h | h
      · exact .inl (.inr h)
      · exact .inl (.inl h)
      · exact .inr h
  · exact fall_append hI hp (by intro d hd; rw [hbf] at hd; cases hd)

theorem pushJump_eq (j : String) (s : Gen) : ∃ new, pushJump j s = { s with pending := new ++ s.pending } ∧
    (j ∈ s.visited ∨ j ∈ new) ∧ (∀ k ∈ new, k = j ∧ k ∉ s.visited) ∧ new.length ≤ 1 := by
  unfold pushJump
  split
  · rename_i h; exact ⟨[], rfl, .inl h, by simp, by simp⟩
  · rename_i h; exact ⟨[j], rfl, .inr (by simp), by simpa using h, by simp⟩

theorem genStep_ok {B : Blocks} {start : String} {nodes : List String} (hG : Good B start nodes) {s : Gen} {order : List String} {b : String}
    {rest : List String} (hI : OInv B start s order) (hp : s.pending = b :: rest) (hbn : b ∈ nodes) :
    ∃ s' order', genStep B b { s with pending := rest } = some s' ∧ OInv B start s' order' ∧ order' ~ b :: order := by
  obtain ⟨⟨x, hx, hexit⟩, hcl⟩ := hG.finite b hbn
  have hsome : ∀ c, Succ B b c → (B c).isSome = true := by
    intro c hc
    obtain ⟨⟨y, hy, _⟩, _⟩ := hG.finite c (hcl c hc)
    rw [hy]; rfl
  unfold genStep
  rw [hx, Option.bind_some]
  simp only
  have hvis : ∀ c, c ∈ b :: s.visited ↔ c = b ∨ c ∈ order := fun c => by rw [mem_cons, hI.visited]
  cases he : x.exit with
  | conditional j f =>
    have hf : fallsTo B b = some f := by simp [fallsTo, hx, he]
    have hj : jumpsTo B b = some j := by simp [jumpsTo, hx, he]
    simp only
    rw [if_pos ⟨hsome j (.inr hj), hsome f (.inl hf)⟩]
    obtain ⟨new, h1, h2, h3, h4⟩ := pushJump_eq j ⟨rest, b :: s.visited, s.code⟩
    rw [h1]
    simp only at h2 h3 ⊢
    obtain ⟨order', hO, hP⟩ := step_locate hG hI hp hx hf (new := new) (by
        intro j' hj'
        rw [hj] at hj'
        cases hj'
        rw [hvis] at h2
        rcases h2 with (h | h) | h
        · exact .inr (.inl h)
        · exact .inl h
        · exact .inr (.inr h)) (by
        intro k hk
        obtain ⟨rfl, hn⟩ := h3 k hk
        rw [hvis, not_or] at hn
        exact ⟨hn.2, hn.1, hj⟩) (by
        match new, h4 with
        | [], _ => simp
        | [a], _ => simp)
    exact ⟨_, order', rfl, hO, hP⟩
  | unconditional j =>
    have hf : fallsTo B b = none := by simp [fallsTo, hx, he]
    have hj : jumpsTo B b = some j := by simp [jumpsTo, hx, he]
    simp only
    rw [if_pos (hsome j (.inr hj))]
    obtain ⟨new, h1, h2, h3, h4⟩ := pushJump_eq j (append b x.code ⟨rest, b :: s.visited, s.code⟩)
    rw [h1]
    simp only [append] at h2 h3 ⊢
    obtain ⟨order', hO, hP⟩ := step_append hG hI hp hx hf (new := new) (by
        intro j' hj'
        rw [hj] at hj'
        cases hj'
        rw [hvis] at h2
        rcases h2 with (h | h) | h
        · exact .inr (.inl h)
        · exact .inl h
        · exact .inr (.inr h)) (by
        intro k hk
        obtain ⟨rfl, hn⟩ := h3 k hk
        rw [hvis, not_or] at hn
        exact ⟨hn.2, hn.1, hj⟩) h4
    exact ⟨_, order', rfl, hO, hP⟩
  | fallsTo f =>
    have hf : fallsTo B b = some f := by simp [fallsTo, hx, he]
    have hj : jumpsTo B b = none := by simp [jumpsTo, hx, he]
    simp only
    rw [if_pos (hsome f (.inl hf))]
    obtain ⟨order', hO, hP⟩ := step_locate hG hI hp hx hf (new := []) (by rw [hj]; simp) (by simp) (by simp)
    exact ⟨_, order', rfl, hO, hP⟩
  | subBlock f =>
    have hf : fallsTo B b = some f := by simp [fallsTo, hx, he]
    have hj : jumpsTo B b = none := by simp [jumpsTo, hx, he]
    simp only
    rw [if_pos (hsome f (.inl hf))]
    obtain ⟨order', hO, hP⟩ := step_locate hG hI hp hx hf (new := []) (by rw [hj]; simp) (by simp) (by simp)
    exact ⟨_, order', rfl, hO, hP⟩
  | terminal =>
    obtain ⟨order', hO, hP⟩ := step_append hG hI hp hx (by simp [fallsTo, hx, he]) (new := []) (by simp [jumpsTo, hx, he]) (by simp) (by simp)
    exact ⟨_, order', rfl, hO, hP⟩
  | functionReturn =>
    obtain ⟨order', hO, hP⟩ := step_append hG hI hp hx (by simp [fallsTo, hx, he]) (new := []) (by simp [jumpsTo, hx, he]) (by simp) (by simp)
    exact ⟨_, order', rfl, hO, hP⟩
  | mainExit =>
    obtain ⟨order', hO, hP⟩ := step_append hG hI hp hx (by simp [fallsTo, hx, he]) (new := []) (by simp [jumpsTo, hx, he]) (by simp) (by simp)
    exact ⟨_, order', rfl, hO, hP⟩
  | other => exact absurd he hexit

theorem reach_nodes {B : Blocks} {start : String} {nodes : List String} (hG : Good B start nodes) {P : String → Prop} {y : String}
    (h : ReachVia B P start y) : y ∈ nodes := by
  induction h with
  | refl => exact hG.inNodes
  | step x y _ _ hs ih => exact (hG.finite x ih).2 y hs

theorem genLoop_ok {B : Blocks} {start : String} {nodes : List String} (hG : Good B start nodes) : ∀ (f : Nat) (s : Gen) (order : List String),
    OInv B start s order → Graph.left nodes order ≤ f →
    ∃ s' order', genLoop B f s = some s'.code ∧ OInv B start s' order' ∧ s'.pending = [] ∧ ∀ b ∈ order, b ∈ order' := by
  intro f
  induction f with
  | zero =>
    intro s order hI hl
    cases hp : s.pending with
    | nil => exact ⟨s, order, by rw [genLoop.eq_def]; simp [hp], hI, hp, fun _ h => h⟩
    | cons b rest =>
      have hb := reach_nodes hG (hI.reach b (.inr (by simp [hp])))
      have := Graph.left_cons_lt hb (hI.fresh b (by simp [hp]))
      omega
  | succ f ih =>
    intro s order hI hl
    cases hp : s.pending with
    | nil => exact ⟨s, order, by rw [genLoop.eq_def]; simp [hp], hI, hp, fun _ h => h⟩
    | cons b rest =>
      have hb := reach_nodes hG (hI.reach b (.inr (by simp [hp])))
      have hlt := Graph.left_cons_lt hb (hI.fresh b (by simp [hp]))
      obtain ⟨s1, o1, h1, h2, h3⟩ := genStep_ok hG hI hp hb
      have hmono : Graph.left nodes o1 ≤ Graph.left nodes (b :: order) := Graph.left_mono fun y hy => h3.mem_iff.2 hy
      obtain ⟨s', o', g1, g2, g3, g4⟩ := ih s1 o1 h2 (by omega)
      refine ⟨s', o', ?_, g2, g3, fun y hy => g4 y (h3.mem_iff.2 (mem_cons_of_mem _ hy))⟩
      rw [genLoop.eq_def]
      simp only [hp, h1, Option.bind_some]
      exact g1

/-- **C33 (partial: under assumptions on the graph).** Under the assumptions `Good`, the generation of the code ends without an exception. The code is a sequence of whole blocks in which
every block that can be reached from the start, and no other, occurs exactly once, and each block that falls through to another one is
immediately followed by it. -/
theorem placement_exact_partial (B : Blocks) (start : String) (nodes : List String) (hG : Good B start nodes) (fuel : Nat) (hfuel : nodes.length ≤ fuel) :
    ∃ order, generate B fuel start = some (codeOf B order) ∧ order.Nodup ∧ (∀ b, b ∈ order ↔ ReachVia B (fun _ => True) start b) ∧
      ∀ c d, c ∈ order → fallsTo B c = some d → ∃ l r, order = l ++ c :: d :: r := by
  have h0 : OInv B start ⟨[start], [], []⟩ [] :=
    ⟨rfl, by simp, by simp, by simp, by simp, by simp, by simp, by simp, by simpa using ReachVia.refl, by simp⟩
  have hl : Graph.left nodes [] ≤ fuel := Nat.le_trans (by unfold Graph.left; exact length_filter_le _ _) hfuel
  obtain ⟨s', order, h1, hI, hp, _⟩ := genLoop_ok hG fuel _ _ h0 hl
  have hstart : start ∈ order := by
    obtain ⟨s1, o1, g1, g2, g3⟩ := genStep_ok hG h0 rfl hG.inNodes
    cases fuel with
    | zero =>
      have := Graph.left_cons_lt (vis := []) hG.inNodes (by simp)
      omega
    | succ f =>
      have hlt := Graph.left_cons_lt (vis := []) hG.inNodes (by simp)
      have hmono : Graph.left nodes o1 ≤ Graph.left nodes [start] := Graph.left_mono fun y hy => g3.mem_iff.2 hy
      obtain ⟨s2, o2, k1, k2, k3, k4⟩ := genLoop_ok hG f s1 o1 g2 (by omega)
      have hs : start ∈ o2 := k4 start (g3.mem_iff.2 mem_cons_self)
      rw [genLoop.eq_def] at h1
      simp only [g1, Option.bind_some] at h1
      rw [k1] at h1
      have e : s2.code = s'.code := Option.some.inj h1
      rw [k2.code, hI.code] at e
      have := (any_codeOf (d := start) hI.blocks).1 (by rw [← e]; exact (any_codeOf k2.blocks).2 hs)
      exact this
  refine ⟨order, by rw [generate, h1, hI.code], hI.nodup, fun b => ⟨fun hb => (hI.reach b (.inl hb)).mono fun _ _ => trivial, fun hb => ?_⟩, ?_⟩
  · induction hb with
    | refl => exact hstart
    | step x y _ _ hs ih =>
      rcases hI.succs x ih y hs with h | h
      · exact h
      · simp [hp] at h
  · intro c d hc hd
    rcases hI.fall c d hc hd with h | ⟨h, _⟩
    · exact h
    · simp [hp] at h

/-- The code starts with the block `start`. -/
def Starts (start : String) (s : Gen) : Prop := s.code.head?.map Prod.fst = some start

theorem starts_append {start b : String} {c : List Asm} {s : Gen} (h : Starts start s) : Starts start (append b c s) := by
  unfold Starts append at *
  cases hc : s.code with
  | nil => simp [hc] at h
  | cons p l => simpa [hc] using h

theorem starts_pushJump {start j : String} {s : Gen} (h : Starts start s) : Starts start (pushJump j s) := by
  unfold Starts pushJump at *
  split <;> exact h

theorem starts_locate {start b d : String} {c : List Asm} {s : Gen} (h : Starts start s) (hd : d ≠ start) : Starts start (locate b d c s) := by
  unfold Starts locate at *
  cases hc : s.code with
  | nil => simp [hc] at h
  | cons p l =>
    simp only [hc, head?_cons, Option.map_some, Option.some.injEq] at h
    dsimp only
    split
    · have : p.1 ≠ d := by rw [h]; exact fun e => hd e.symm
      rw [findIdx_cons, decide_eq_false this]
      simp [h]
    · simp [h]

theorem starts_genLoop {B : Blocks} {start : String} (hno : ∀ c, fallsTo B c ≠ some start) : ∀ (f : Nat) (s : Gen) (code : List (String × Asm)),
    Starts start s → genLoop B f s = some code → code.head?.map Prod.fst = some start := by
  intro f
  induction f with
  | zero =>
    intro s code hs h
    rw [genLoop.eq_def] at h
    dsimp only at h
    cases hp : s.pending with
    | nil => rw [hp] at h; cases h; exact hs
    | cons b rest => rw [hp] at h; cases h
  | succ f ih =>
    intro s code hs h
    rw [genLoop.eq_def] at h
    dsimp only at h
    cases hp : s.pending with
    | nil => rw [hp] at h; cases h; exact hs
    | cons b rest =>
      rw [hp] at h
      dsimp only at h
      obtain ⟨s', h1, h2⟩ := Option.bind_eq_some_iff.1 h
      refine ih s' code ?_ h2
      obtain ⟨x, hx, h3⟩ := Option.bind_eq_some_iff.1 h1
      have hf := hno b
      rw [fallsTo, hx] at hf
      have hs0 : Starts start { pending := rest, visited := b :: s.visited, code := s.code } := hs
      cases he : x.exit with
      | conditional j d =>
        simp only [Option.bind_some, he] at hf
        rw [he] at h3
        dsimp only at h3
        split at h3
        · cases h3; exact starts_locate (starts_pushJump hs0) (fun e => hf (by rw [e]))
        · cases h3
      | unconditional j =>
        rw [he] at h3
        dsimp only at h3
        split at h3
        · cases h3; exact starts_pushJump (starts_append hs0)
        · cases h3
      | fallsTo d =>
        simp only [Option.bind_some, he] at hf
        rw [he] at h3
        dsimp only at h3
        split at h3
        · cases h3; exact starts_locate hs0 (fun e => hf (by rw [e]))
        · cases h3
      | subBlock d =>
        simp only [Option.bind_some, he] at hf
        rw [he] at h3
        dsimp only at h3
        split at h3
        · cases h3; exact starts_locate hs0 (fun e => hf (by rw [e]))
        · cases h3
      | terminal => rw [he] at h3; cases h3; exact starts_append hs0
      | functionReturn => rw [he] at h3; cases h3; exact starts_append hs0
      | mainExit => rw [he] at h3; cases h3; exact starts_append hs0
      | other => rw [he] at h3; cases h3

/-- C33 (part): when no block falls to the first block, and the first block has code, the generated code starts with it: execution enters at the first
block. No other assumption is needed. -/
theorem placement_entry_first (B : Blocks) (start : String) (x : Block) (hx : B start = some x) (hne : x.code ≠ []) (hno : ∀ c, fallsTo B c ≠ some start)
    (fuel : Nat) (code : List (String × Asm)) (h : generate B fuel start = some code) : code.head?.map Prod.fst = some start := by
  cases fuel with
  | zero => rw [generate, genLoop.eq_def] at h; cases h
  | succ f =>
    rw [generate, genLoop.eq_def] at h
    dsimp only at h
    obtain ⟨s', h1, h2⟩ := Option.bind_eq_some_iff.1 h
    refine starts_genLoop hno f s' code ?_ h2
    obtain ⟨y, hy, h3⟩ := Option.bind_eq_some_iff.1 h1
    rw [hx] at hy; cases hy
    have app : ∀ (v : List String) (p : List String), Starts start (append start x.code ⟨p, v, []⟩) := by
      intro v p
      unfold Starts append
      cases hc : x.code with
      | nil => exact absurd hc hne
      | cons i l => rfl
    have loc : ∀ (v : List String) (p : List String) (d : String), Starts start (locate start d x.code ⟨p, v, []⟩) := by
      intro v p d
      unfold Starts locate
      cases hc : x.code with
      | nil => exact absurd hc hne
      | cons i l => rfl
    cases he : x.exit with
    | conditional j d =>
      rw [he] at h3
      dsimp only at h3
      split at h3
      · cases h3
        unfold pushJump
        split <;> exact loc _ _ _
      · cases h3
    | unconditional j =>
      rw [he] at h3
      dsimp only at h3
      split at h3
      · cases h3; exact starts_pushJump (app _ _)
      · cases h3
    | fallsTo d =>
      rw [he] at h3
      dsimp only at h3
      split at h3
      · cases h3; exact loc _ _ _
      · cases h3
    | subBlock d =>
      rw [he] at h3
      dsimp only at h3
      split at h3
      · cases h3; exact loc _ _ _
      · cases h3
    | terminal => rw [he] at h3; cases h3; exact app _ _
    | functionReturn => rw [he] at h3; cases h3; exact app _ _
    | mainExit => rw [he] at h3; cases h3; exact app _ _
    | other => rw [he] at h3; cases h3

/-! ### The theorem applies -/

/-- Two `if` statements in a loop: `A` jumps to the loop header `L`, which leaves it to `R` or continues. -/
def exList : List (String × Block) :=
  [("A", ⟨[asmOf "x1", asmOf "JUMP"], none, .unconditional "L"⟩), ("L", ⟨[asmOf "x2", asmOf "JUMPI"], some "1", .conditional "T" "E"⟩), ("T", ⟨[asmOf "x3", asmOf "JUMP"], some "2", .unconditional "E"⟩),
   ("E", ⟨[asmOf "x4", asmOf "JUMPI"], some "3", .conditional "U" "R"⟩), ("U", ⟨[asmOf "x5", asmOf "JUMP"], some "4", .unconditional "L"⟩), ("R", ⟨[asmOf "x6"], none, .mainExit⟩)]
def exB : Blocks := fun b => exList.lookup b
def exNodes : List String := exList.map Prod.fst

theorem exB_mem {b : String} {x : Block} (h : exB b = some x) : b ∈ exNodes := by
  have : ∀ (l : List (String × Block)), l.lookup b = some x → b ∈ l.map Prod.fst := by
    intro l
    induction l with
    | nil => simp
    | cons p l ih =>
      obtain ⟨k, v⟩ := p
      rw [lookup_cons]
      split
      · rename_i hk
        intro _
        simp [eq_of_beq hk]
      · intro h; simp only [map_cons, mem_cons]; exact .inr (ih h)
  exact this exList h

theorem exFall_mem {b d : String} (h : fallsTo exB b = some d) : b ∈ exNodes := by
  unfold fallsTo at h
  obtain ⟨x, hx, _⟩ := Option.bind_eq_some_iff.1 h
  exact exB_mem hx

theorem exJump_mem {b d : String} (h : jumpsTo exB b = some d) : b ∈ exNodes := by
  unfold jumpsTo at h
  obtain ⟨x, hx, _⟩ := Option.bind_eq_some_iff.1 h
  exact exB_mem hx

theorem exGood : Good exB "A" exNodes := by
  refine ⟨by decide +kernel, ?_, ?_, ?_, ?_, ?_, ?_⟩
  · intro b hb
    have h1 : ∀ b ∈ exNodes, (exB b).isSome = true ∧ (exB b).any (fun x => decide (x.exit ≠ .other)) = true := by decide +kernel
    have h2 : ∀ b ∈ exNodes, (fallsTo exB b).all (fun c => decide (c ∈ exNodes)) = true ∧ (jumpsTo exB b).all (fun c => decide (c ∈ exNodes)) = true := by
      decide +kernel
    constructor
    · obtain ⟨x, hx⟩ := Option.isSome_iff_exists.1 (h1 b hb).1
      refine ⟨x, hx, ?_⟩
      have := (h1 b hb).2
      rw [hx] at this
      simpa using this
    · rintro c (hc | hc)
      · have := (h2 b hb).1; rw [hc] at this; simpa using this
      · have := (h2 b hb).2; rw [hc] at this; simpa using this
  · intro b x hx
    have h : ∀ b ∈ exNodes, (exB b).all (fun x => decide (x.code ≠ [])) = true := by decide +kernel
    have := h b (exB_mem hx)
    rw [hx] at this
    simpa using this
  · intro b c d hb hc
    have h : ∀ b ∈ exNodes, ∀ c ∈ exNodes, fallsTo exB b = fallsTo exB c → (fallsTo exB b).isSome = true → b = c := by decide +kernel
    exact h b (exFall_mem hb) c (exFall_mem hc) (hb.trans hc.symm) (by rw [hb]; rfl)
  · intro b hb
    have h : ∀ b ∈ exNodes, fallsTo exB b ≠ some b := by decide +kernel
    exact h b (exFall_mem hb) hb
  · intro b j d hj hf
    have h1 : ∀ b ∈ exNodes, (fallsTo exB b).isSome = true → ∀ c ∈ exNodes, (jumpsTo exB b).isSome = true → fallsTo exB c ≠ jumpsTo exB b := by decide +kernel
    have h2 : ∀ b ∈ exNodes, (fallsTo exB b).isSome = true → ∀ c ∈ exNodes, (jumpsTo exB b).isSome = true → jumpsTo exB c = jumpsTo exB b → c = b := by
      decide +kernel
    constructor
    · intro c hc
      exact h1 b (exFall_mem hf) (by rw [hf]; rfl) c (exFall_mem hc) (by rw [hj]; rfl) (hc.trans hj.symm)
    · intro c hc
      exact h2 b (exFall_mem hf) (by rw [hf]; rfl) c (exJump_mem hc) (by rw [hj]; rfl) (hc.trans hj.symm)
  · intro b c d hb hc hr
    have h1 : ∀ b ∈ exNodes, ∀ c ∈ exNodes, fallsTo exB b = some c → (fallsTo exB c).isSome = true → c = "E" := by decide +kernel
    have hcE := h1 b (exFall_mem hb) c (exFall_mem hc) hb (by rw [hc]; rfl)
    subst hcE
    have hd : d = "R" := by
      have : fallsTo exB "E" = some "R" := by decide +kernel
      rw [this] at hc; cases hc; rfl
    have key : ∀ y, ReachVia exB (· ≠ "E") "A" y → y ∈ ["A", "L", "T", "E"] := by
      intro y hy
      have h2 : ∀ x ∈ ["A", "L", "T", "E"], x ≠ "E" → (fallsTo exB x).all (fun c => decide (c ∈ ["A", "L", "T", "E"])) = true ∧
          (jumpsTo exB x).all (fun c => decide (c ∈ ["A", "L", "T", "E"])) = true := by decide +kernel
      induction hy with
      | refl => simp
      | step x y _ hx hs ih =>
        rcases hs with hs | hs
        · have := (h2 x ih hx).1; rw [hs] at this; simpa using this
        · have := (h2 x ih hx).2; rw [hs] at this; simpa using this
    have := key d hr
    rw [hd] at this
    simp at this

example : ∀ c, fallsTo exB c ≠ some "A" := by
  intro c hc
  have h : ∀ c ∈ exNodes, fallsTo exB c ≠ some "A" := by decide +kernel
  exact h c (exFall_mem hc) hc

example : generate exB 6 "A" = some (codeOf exB ["A", "L", "E", "R", "U", "T"]) := by decide +kernel

/-! ### Without the assumptions -/

/-- Without `condJump`: a block that is jumped to by a conditional block and also reached from its other branch is emitted twice. -/
theorem placement_duplicates : (generate (fun b => [("A", (⟨[asmOf "JUMPI"], none, .conditional "X" "Y"⟩ : Block)), ("Y", ⟨[asmOf "JUMP"], none, .unconditional "X"⟩),
    ("X", ⟨[asmOf "x"], some "1", .terminal⟩)].lookup b) 9 "A").map (fun c => c.map fun p => p.2.name ++ p.2.value.getD "") =
    some ["JUMPI", "JUMP", "tag1", "JUMPDEST", "x", "tag1", "JUMPDEST", "x"] := by decide +kernel

/-- Without `oneFall`: the second block that falls to `D` is placed between the first one and `D`. -/
theorem placement_two_falls : (generate (fun b => [("A", (⟨[asmOf "JUMPI"], none, .conditional "C" "D"⟩ : Block)), ("C", ⟨[asmOf "c"], some "1", .fallsTo "D"⟩),
    ("D", ⟨[asmOf "d"], none, .terminal⟩)].lookup b) 9 "A").map (fun c => c.map Prod.fst) = some ["A", "C", "C", "C", "D"] := by decide +kernel

/-- Without `chain`: `B` falls to `C`, which is placed elsewhere because the block it falls to was placed before. -/
theorem placement_chain : (generate (fun b => [("A", (⟨[asmOf "JUMP"], none, .unconditional "D"⟩ : Block)), ("D", ⟨[asmOf "JUMPI"], some "1", .conditional "B" "E"⟩),
    ("E", ⟨[asmOf "e"], none, .terminal⟩), ("B", ⟨[asmOf "b"], some "2", .fallsTo "C"⟩), ("C", ⟨[asmOf "c"], none, .fallsTo "D"⟩)].lookup b) 9 "A").map
      (fun c => c.map fun p => p.2.name ++ p.2.value.getD "") =
    some ["JUMP", "c", "tag1", "JUMPDEST", "JUMPI", "e", "tag2", "JUMPDEST", "b"] := by decide +kernel

/-- When a block falls to the first block, it is placed before it: execution would enter at the wrong block. -/
theorem placement_entry_displaced : (generate (fun b => [("A", (⟨[asmOf "JUMPI"], some "1", .conditional "B" "E"⟩ : Block)), ("E", ⟨[asmOf "e"], none, .terminal⟩),
    ("B", ⟨[asmOf "b"], some "2", .fallsTo "A"⟩)].lookup b) 9 "A").map (fun c => c.map fun p => p.2.name ++ p.2.value.getD "") =
    some ["tag2", "JUMPDEST", "b", "tag1", "JUMPDEST", "JUMPI", "e"] := by decide +kernel

end Grey.Output
