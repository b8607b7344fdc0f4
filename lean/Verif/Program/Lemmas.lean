/-
Lemmas for whole programs: values of padding names do not matter, stacks of names and values, entering a block.
-/
import Verif.Program.Spec
import Verif.Layout.DriverTheorems
import Verif.Sfs.BuildInv
namespace Grey.Program
open List Grey.Layout Grey.Sfs Grey.SymExec

theorem padding_proper {x : String} (h : Padding x) : ¬ IsLiteral x ∧ x ≠ "bottom" := by
  have hx : ∃ (c : Char) (n : Nat), x.toList = c :: Nat.toDigits 10 n ∧ (c = 'a' ∨ c = 'b') := by
    rcases h with ⟨n, rfl⟩ | ⟨n, rfl⟩
    · exact ⟨'a', n, by simp, Or.inl rfl⟩
    · exact ⟨'b', n, by simp [pseudoName], Or.inr rfl⟩
  obtain ⟨c, n, hx, hc⟩ := hx
  refine ⟨?_, ?_⟩
  · rintro ⟨l, hl⟩
    rw [hx] at hl
    simp only [cons.injEq] at hl
    rcases hc with rfl | rfl <;> exact absurd hl.1 (by decide)
  · rintro rfl
    have he : "bottom".toList = ['b', 'o', 't', 't', 'o', 'm'] := by decide
    rw [he] at hx
    simp only [cons.injEq] at hx
    have := Nat.isDigit_of_mem_toDigits (b := 10) (by decide) (by decide) (n := n) (c := 'o') (by rw [← hx.2]; simp)
    exact absurd this (by decide)

section
variable {V σ : Type}

/-- Equal but for the padding names. -/
def Same (env env' : String → V) : Prop := ∀ x, ¬ Padding x → env x = env' x

theorem read_same {I : Interp V σ} {env env' : String → V} (h : Same env env') {x : String} (hx : ¬ Padding x) :
    I.read env x = I.read env' x := by
  unfold Interp.read
  rw [h x hx]

theorem map_read_same {I : Interp V σ} {env env' : String → V} (h : Same env env') {l : List String}
    (hl : ∀ x ∈ l, ¬ Padding x) : l.map (I.read env) = l.map (I.read env') :=
  map_congr_left fun x hx => read_same h (hl x hx)

theorem assign_same {env env' : String → V} (h : Same env env') (vs : List String) (xs : List V) :
    Same (assign env vs xs) (assign env' vs xs) := by
  induction vs generalizing env env' xs with
  | nil => exact h
  | cons v vs ih =>
    cases xs with
    | nil => exact h
    | cons x xs =>
      refine ih ?_ xs
      intro y hy
      simp only
      split
      · rfl
      · exact h y hy

theorem blockRun_same {I : Interp V σ} {instrs : List Ins} (hi : ∀ i ∈ instrs, ∀ v ∈ i.inArgs, ¬ Padding v)
    {env env' : String → V} (h : Same env env') (w : σ) :
    Same (blockRun I instrs env w).1 (blockRun I instrs env' w).1 ∧ (blockRun I instrs env w).2 = (blockRun I instrs env' w).2 := by
  induction instrs generalizing env env' w with
  | nil => exact ⟨h, rfl⟩
  | cons i l ih =>
    have he : I.ins i env w = I.ins i env' w := by
      unfold Interp.ins
      rw [map_read_same h (hi i mem_cons_self)]
    rw [blockRun, blockRun, he]
    exact ih (fun j hj => hi j (mem_cons_of_mem _ hj)) (assign_same h _ _) _

/-- The values of a stack are those of the names, but for the padding. -/
def Match (I : Interp V σ) (src : List String) (vals : List V) (env : String → V) : Prop :=
  src.length = vals.length ∧ ∀ (i : Nat) (x : String), src[i]? = some x → ¬ Padding x → vals[i]? = some (I.read env x)

theorem subst_get {src : List String} {i : Nat} {n : String} (h : (substDuplicates src)[i]? = some n) :
    Padding n ∨ src[i]? = some n := by
  unfold substDuplicates at h
  have hlt : i < src.length := by
    have := (List.getElem?_eq_some_iff.1 h).1
    rw [length_reverse, substRev_length, length_reverse] at this
    exact this
  rw [getElem?_reverse (by rw [substRev_length, length_reverse]; exact hlt), substRev_length, length_reverse] at h
  have hx : src.reverse[src.length - 1 - i]? = some src[i] := by
    rw [getElem?_reverse (by omega), show src.length - 1 - (src.length - 1 - i) = i by omega]
    exact getElem?_eq_getElem hlt
  rw [substRev_get src.reverse [] nodup_nil _ _ hx] at h
  split at h
  · simp only [Option.some.injEq] at h
    exact Or.inl (Or.inl ⟨_, h.symm⟩)
  · right
    rw [getElem?_eq_getElem hlt]
    exact h

theorem match_fill {I : Interp V σ} {src : List String} {vals : List V} {env : String → V} (h : Match I src vals env)
    (hn : (substDuplicates src).Nodup) : ∃ env', Same env env' ∧ (substDuplicates src).map (I.read env') = vals := by
  classical
  have hlen : (substDuplicates src).length = vals.length := by rw [(substitution_keeps_deepest src).1, h.1]
  refine ⟨fun x => if Padding x then (vals[(substDuplicates src).idxOf x]?).getD (env x) else env x,
    fun x hx => by simp only [if_neg hx], ?_⟩
  apply ext_getElem?
  intro i
  rw [getElem?_map]
  cases hi : (substDuplicates src)[i]? with
  | none =>
    rw [List.getElem?_eq_none_iff] at hi
    rw [Option.map_none, eq_comm, List.getElem?_eq_none_iff]
    omega
  | some n =>
    have hlt := (List.getElem?_eq_some_iff.1 hi).1
    simp only [Option.map_some]
    by_cases hp : Padding n
    · obtain ⟨h1, h2⟩ := padding_proper hp
      have hidx : (substDuplicates src).idxOf n = i := by
        have := (List.getElem?_eq_some_iff.1 hi).2
        rw [← this]
        exact hn.idxOf_getElem i hlt
      unfold Interp.read
      rw [if_neg h1, if_neg h2]
      simp only [if_pos hp, hidx]
      rw [getElem?_eq_getElem (by omega)]
      rfl
    · rcases subst_get hi with h1 | h1
      · exact absurd h1 hp
      · rw [h.2 i n h1 hp]
        unfold Interp.read
        simp only [if_neg hp]

theorem read_proper {I : Interp V σ} {env : String → V} {x : String} (h : Proper x) : I.read env x = env x := by
  unfold Interp.read
  rw [if_neg h.notLit, if_neg h.notBottom]

/-- The value of a variable after the block is a result of the instruction that defines it. -/
theorem blockRun_out {I : Interp V σ} {instrs : List Ins} (hn : (instrs.flatMap (·.outArgs)).Nodup) {i : Ins} (hi : i ∈ instrs)
    (env : String → V) (w : σ) : ∃ env' w', ∀ v ∈ i.outArgs, (blockRun I instrs env w).1 v = assign env' i.outArgs (I.ins i env' w').1 v := by
  induction instrs generalizing env w with
  | nil => simp at hi
  | cons j l ih =>
    rw [flatMap_cons, nodup_append] at hn
    rw [blockRun]
    rcases mem_cons.1 hi with rfl | hi
    · refine ⟨env, w, fun v hv => blockRun_notin _ _ _ _ fun k hk ho => ?_⟩
      exact hn.2.2 v hv v (mem_flatMap.2 ⟨k, hk, ho⟩) rfl
    · exact ih hn.2.1 hi _ _

theorem tagName : "PUSH [tag]".map Char.toUpper = "PUSH [TAG]" := by decide +kernel

/-- After the block, the tag it pushes has its value. -/
theorem tag_value {I : Interp V σ} {dest : V → Option (String × String)} {instrs : List Ins} {t : String} {target : String × String}
    (h : PushesTag I dest instrs t target) (hn : (instrs.flatMap (·.outArgs)).Nodup)
    (hp : ∀ i ∈ instrs, ∀ v ∈ i.outArgs, Proper v) (env : String → V) (w : σ) :
    dest (I.read (blockRun I instrs env w).1 t) = some target := by
  obtain ⟨⟨i, hi, ho, ha, ht⟩, v, hv, hd⟩ := h
  obtain ⟨env', w', he⟩ := blockRun_out (I := I) hn hi env w
  have hm : t ∈ i.outArgs := by rw [ht]; simp
  rw [read_proper (hp i hi t hm), he t hm]
  have hins : (I.ins i env' w').1 = [v] := by
    unfold Interp.ins
    rw [if_neg (by rw [ho]; decide), if_neg (by rw [ho]; decide), ha, map_nil]
    have hname : i.name = "PUSH [TAG]" := by unfold Ins.name; rw [ho]; exact tagName
    have hex : i.extra = some [t] := by
      unfold Ins.extra
      rw [if_neg (by rw [ho]; decide), if_pos hname, ht]
    rw [hname, hex]
    exact hv w'
  rw [hins, ht]
  simp only [assign, if_true]
  exact hd

theorem beforeSplit_eq (F : Fn) (B : LBlock) (tgt : List String) :
    beforeSplit (F.split B.id) tgt = F.exitArgs B ++ tgt.drop (F.exitOuts B).length := by
  unfold beforeSplit Fn.exitArgs Fn.exitOuts
  cases F.split B.id <;> simp

theorem enter_same {I : Interp V σ} {phis : List Phi} (hp : ∀ p ∈ phis, ∀ v ∈ p.args, ¬ Padding v) (k : Nat) {env env' : String → V}
    (h : Same env env') : Same (enter I phis k env) (enter I phis k env') := by
  intro x hx
  unfold enter
  split
  · rename_i f hf
    split
    · rename_i a ha
      exact read_same h (hp f (mem_of_find?_eq_some hf) a (mem_of_getElem? ha))
    · exact h x hx
  · exact h x hx

/-- Entering a block is what `Enter` says. -/
theorem enter_enter {I : Interp V σ} {phis : List Phi} (hn : (phis.map (·.out)).Nodup) (hpr : ∀ p ∈ phis, Proper p.out) (k : Nat)
    (env : String → V) : Enter phis k (I.read env) (I.read (enter I phis k env)) := by
  constructor
  · intro f hf a ha
    rw [read_proper (hpr f hf)]
    unfold enter
    have : phis.find? (fun g => g.out == f.out) = some f := by
      cases hc : phis.find? (fun g => g.out == f.out) with
      | none =>
        have := find?_eq_none.1 hc f hf
        simp at this
      | some g =>
        have h1 := mem_of_find?_eq_some hc
        have h2 := find?_some hc
        simp only [beq_iff_eq] at h2
        rw [inj_on_of_nodup_map hn h1 hf h2]
    rw [this]
    simp only [ha]
  · intro x hx
    have : phis.find? (fun g => g.out == x) = none := by
      rw [find?_eq_none]
      intro g hg
      simpa using hx g hg
    unfold Interp.read
    have he : enter I phis k env x = env x := by unfold enter; rw [this]
    rw [he]

end
end Grey.Program
