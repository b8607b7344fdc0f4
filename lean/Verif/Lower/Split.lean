/-
Splitting a block of a component of an object keeps the executions of the object.
-/
import Verif.Prep.Merge
import Verif.Cfg.Split
import Verif.Inline.PassProof
namespace Grey.Lower
open List Grey.Cfg Grey.Inline Grey.Prep

theorem SameRuns.symm {O O' : Obj} (h : SameRuns O O') : SameRuns O' O :=
  fun V W sem base w => ⟨fun s => ((h V W sem base w).1 s).symm, (h V W sem base w).2.symm⟩

/-- Where a position of the split program is in the original one; `cs` are the instructions of the second half. -/
def splitPos (b : String) (cs : List Instr) (x : String) (rest : List Instr) : String × List Instr :=
  if x = firstId b then (b, rest ++ cs) else if x = secondId b then (b, rest) else (x, rest)

theorem split_sim {G G' : BlockList} (hG : Sane G) {b : String} {blk : Block} (hb : G.get b = some blk) (hself : b ∉ blk.succs)
    (hf : G.get (firstId b) = none) (hs : G.get (secondId b) = none) {k : Nat} (hphi : ∀ i ∈ blk.instrs.drop (k + 1), isPhi i = false)
    (hst : G'.start = if G.start = some b then some (firstId b) else G.start)
    (hget : ∀ x, G'.get x = if x = secondId b then some (secondHalf k blk) else if x = firstId b then some (firstHalf k blk) else
        if x = b then none else (G.get x).map (fixOther b blk x)) :
    BodySim G' G (splitPos b (code (secondHalf k blk))) (fun x => ∃ X, G'.get x = some X) (fun x => if x = firstId b then 1 else 0) := by
  have hid := get_id hb
  have hfs := firstId_ne_secondId b
  have hgf : G'.get (firstId b) = some (firstHalf k blk) := by rw [hget, if_neg hfs, if_pos rfl]
  have hgs : G'.get (secondId b) = some (secondHalf k blk) := by rw [hget, if_pos rfl]
  have hgb : G'.get b = none := by
    rw [hget, if_neg (Ne.symm (secondId_ne b)), if_neg (Ne.symm (firstId_ne b)), if_pos rfl]
  have hne : ∀ x X, G.get x = some X → x ≠ firstId b ∧ x ≠ secondId b := by
    intro x X hX
    constructor
    · rintro rfl; rw [hf] at hX; cases hX
    · rintro rfl; rw [hs] at hX; cases hX
  have hgo : ∀ x X, G.get x = some X → x ≠ b → G'.get x = some (fixOther b blk x X) := by
    intro x X hX hxb
    obtain ⟨h1, h2⟩ := hne x X hX
    rw [hget, if_neg h2, if_neg h1, if_neg hxb, hX]; rfl
  obtain ⟨hp1, hp2⟩ := filter_drop_phi hphi
  have pos_f : ∀ rest, splitPos b (code (secondHalf k blk)) (firstId b) rest = (b, rest ++ code (secondHalf k blk)) := fun _ => if_pos rfl
  have pos_s : ∀ rest, splitPos b (code (secondHalf k blk)) (secondId b) rest = (b, rest) := fun rest => by
    unfold splitPos; rw [if_neg (Ne.symm hfs), if_pos rfl]
  have pos_o : ∀ x rest, x ≠ firstId b → x ≠ secondId b → splitPos b (code (secondHalf k blk)) x rest = (x, rest) := fun x rest h1 h2 => by
    unfold splitPos; rw [if_neg h1, if_neg h2]
  have hcode : code (firstHalf k blk) ++ code (secondHalf k blk) = code blk := by
    unfold code firstHalf secondHalf
    rw [← filter_append, take_append_drop]
  have hphisF : phis blk = phis (firstHalf k blk) := hp1.symm
  -- the places of arguments of phi functions
  have hidx : ∀ t X, G.get t = some X → t ≠ b → ∀ p, p ≠ secondId b → (p = b → t ∈ blk.succs) →
      (fixOther b blk t X).entries.idxOf? (if p = b then secondId b else p) = X.entries.idxOf? p := by
    intro t X hX htb p hps hpb
    have hes : ∀ y ∈ X.entries, y ≠ secondId b := by
      rintro y hy rfl
      obtain ⟨P, hP⟩ := hG.coherent.preds t X hX _ (hG.entries t X hX _ hy)
      rw [hs] at hP; cases hP
    simp only [fixOther]
    by_cases hmem : t ∈ blk.succs
    · rw [if_pos hmem]
      unfold replaceName
      refine idxOf?_map_inj (f := fun x => if x = b then secondId b else x) (l := X.entries) (x := p) ?_
      intro y hy hyb
      by_cases h1 : y = b
      · by_cases h2 : p = b
        · rw [h1, h2]
        · simp only [h1, if_true, h2, if_false] at hyb
          exact absurd hyb.symm hps
      · by_cases h2 : p = b
        · simp only [h1, if_false, h2, if_true] at hyb
          exact absurd hyb (hes y hy)
        · simpa only [h1, if_false, h2] using hyb
    · rw [if_neg hmem]
      have : p ≠ b := fun h => hmem (hpb h)
      rw [if_neg this]
  have toB : ∀ p, Goes G' G (splitPos b (code (secondHalf k blk))) (fun x => ∃ X, G'.get x = some X) p (firstId b) p b := by
    intro p
    refine ⟨⟨_, hgf⟩, _, blk, hgf, hb, by rw [pos_f, hcode], ?_⟩
    intro V env
    refine enter_eq hphisF ?_ env
    intro _
    cases p with
    | none => exact Or.inl ⟨rfl, rfl⟩
    | some u => exact Or.inr ⟨u, u, rfl, rfl, rfl⟩
  have toO : ∀ t X p, G.get t = some X → t ≠ b → p ≠ secondId b → (p = b → t ∈ blk.succs) →
      Goes G' G (splitPos b (code (secondHalf k blk))) (fun x => ∃ X, G'.get x = some X) (some (if p = b then secondId b else p)) t (some p) t := by
    intro t X p hX htb hps hpb
    obtain ⟨h1, h2⟩ := hne t X hX
    refine ⟨⟨_, hgo t X hX htb⟩, _, X, hgo t X hX htb, hX, by rw [pos_o t _ h1 h2]; rfl, ?_⟩
    intro V env
    exact enter_eq (X := fixOther b blk t X) (Y := X) rfl (fun _ => Or.inr ⟨_, _, rfl, rfl, (hidx t X hX htb p hps hpb).symm⟩) env
  refine ⟨?_, ?_, ?_⟩
  · obtain ⟨s, S, h1, h2⟩ := hG.start
    rw [hst, h1]
    by_cases hsb : s = b
    · rw [if_pos (by rw [hsb]), hsb]; exact toB none
    · rw [if_neg (fun h => hsb (Option.some.inj h))]
      obtain ⟨h3, h4⟩ := hne s S h2
      refine ⟨⟨_, hgo s S h2 hsb⟩, _, S, hgo s S h2 hsb, h2, by rw [pos_o s _ h3 h4]; rfl, ?_⟩
      intro V env
      exact enter_eq (X := fixOther b blk s S) (Y := S) rfl (fun _ => Or.inl ⟨rfl, rfl⟩) env
  · intro x i is _
    by_cases hxf : x = firstId b
    · subst hxf; exact ⟨b, _, pos_f _, pos_f _⟩
    · by_cases hxs : x = secondId b
      · subst hxs; exact ⟨b, is, pos_s _, pos_s _⟩
      · exact ⟨x, is, pos_o x _ hxf hxs, pos_o x _ hxf hxs⟩
  · rintro x ⟨X', hX'⟩
    refine ⟨X', hX', ?_⟩
    by_cases hxf : x = firstId b
    · right
      subst hxf
      rw [hgf] at hX'
      cases hX'
      refine ⟨secondId b, secondHalf k blk, ?_, hgs, ⟨_, hgs⟩, hp2, by rw [pos_s, pos_f, nil_append], by simp [Ne.symm hfs]⟩
      right
      exact ⟨rfl, by rw [← hid]; rfl⟩
    · left
      by_cases hxs : x = secondId b
      · subst hxs
        rw [hgs] at hX'
        cases hX'
        have tgt : ∀ t ∈ blk.succs, Goes G' G (splitPos b (code (secondHalf k blk))) (fun x => ∃ X, G'.get x = some X) (some (secondId b)) t (some b) t := by
          intro t ht
          obtain ⟨T, hT⟩ := hG.coherent.targets b blk hb t ht
          have := toO t T b hT (by rintro rfl; exact hself ht) (Ne.symm (secondId_ne b)) (fun _ => ht)
          rw [if_pos rfl] at this
          exact this
        refine ⟨b, blk, pos_s _, hb, rfl, ?_, ?_⟩
        · show GoesOpt _ _ _ _ _ _ blk.jumpTo blk.jumpTo
          cases hj : blk.jumpTo with
          | none => trivial
          | some t => exact tgt t (mem_succs.2 (Or.inl hj))
        · show GoesOpt _ _ _ _ _ _ blk.fallsTo blk.fallsTo
          cases hj : blk.fallsTo with
          | none => trivial
          | some t => exact tgt t (mem_succs.2 (Or.inr hj))
      · have hxb : x ≠ b := by rintro rfl; rw [hgb] at hX'; cases hX'
        rw [hget, if_neg hxs, if_neg hxf, if_neg hxb] at hX'
        obtain ⟨X, hX, rfl⟩ := Option.map_eq_some_iff.1 hX'
        have tgt : ∀ t ∈ X.succs, Goes G' G (splitPos b (code (secondHalf k blk))) (fun x => ∃ X, G'.get x = some X) (some x)
            (if t = b then firstId b else t) (some x) t := by
          intro t ht
          obtain ⟨T, hT⟩ := hG.coherent.targets x X hX t ht
          by_cases htb : t = b
          · rw [if_pos htb, htb]; exact toB (some x)
          · rw [if_neg htb]
            have := toO t T x hT htb hxs (fun h => absurd h hxb)
            rw [if_neg hxb] at this
            exact this
        refine ⟨x, X, pos_o x _ hxf hxs, hX, rfl, ?_, ?_⟩
        · show GoesOpt _ _ _ _ _ _ (redirect b (firstId b) X.jumpTo) X.jumpTo
          cases hj : X.jumpTo with
          | none => trivial
          | some t => exact tgt t (mem_succs.2 (Or.inl hj))
        · show GoesOpt _ _ _ _ _ _ (redirect b (firstId b) X.fallsTo) X.fallsTo
          cases hj : X.fallsTo with
          | none => trivial
          | some t => exact tgt t (mem_succs.2 (Or.inr hj))

theorem set_set {O : Obj} {h : Option String} {H : Component} (hH : O.comp h = some H) (G : BlockList) : (O.set h G).set h H.body = O := by
  obtain ⟨m, fns⟩ := O
  cases h with
  | none =>
    have : H = ⟨[], m⟩ := by simpa [Obj.comp] using hH.symm
    subst this; rfl
  | some g =>
    have hg : fns g = some H := hH
    unfold Obj.set
    simp only
    congr 1
    funext x
    by_cases hx : x = g
    · subst hx; simp [hg]
    · simp [hx]

/-- Splitting a block of a component. -/
theorem split_sameRuns {O : Obj} {h : Option String} {H : Component} (hH : O.comp h = some H) (hG : Sane H.body) {b : String} {blk : Block}
    (hb : H.body.get b = some blk) (hself : b ∉ blk.succs) (hf : H.body.get (firstId b) = none) (hs : H.body.get (secondId b) = none) {k : Nat}
    (hphi : ∀ i ∈ blk.instrs.drop (k + 1), isPhi i = false) {G' : BlockList} (he : splitBlock k b H.body = some G') :
    SameRuns O (O.set h G') := by
  obtain ⟨G1, h1, h2, _, h3⟩ := split_spec hG hb hself hf hs k
  rw [he] at h1
  cases h1
  have hset : (O.set h G').comp h = some ⟨H.args, G'⟩ := by rw [comp_set hH, if_pos rfl]
  have := sameRuns_set (O := O.set h G') (G' := H.body) hset (split_sim hG hb hself hf hs hphi h2 h3)
  rw [set_set hH] at this
  exact SameRuns.symm this

end Grey.Lower
