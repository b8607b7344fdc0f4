/-
The addresses that the repair gives to the components one after the other are those that C95 needs (src/reparation/repair_unreachable.py:32-63, 95-101).
-/
import Verif.Stored.KeptPlaces
import Verif.Repair.Slots
namespace Grey.Kept
open List Grey.Repair Grey.Program Grey.Stored

/-! ### Model -/

/-- What the repair of an object computes for its components (src/reparation/repair_unreachable.py:32-63): the components in the order in which they are repaired, the main code
first; the webs of phi functions, the number of values to store and the colours of the scan of each; the colours as the values of the dictionary; the constant of the program before the
repair, the base constants of the components, and the constant afterwards. -/
structure Driver where
  comps : List String
  web : String → String → Option Nat
  num : String → Nat
  colour : String → String → Option Nat
  used : String → List Nat
  first : String
  bases : List String
  last : String

/-- The base constant of a component. -/
def Driver.baseText (D : Driver) (f : String) : String := D.bases.getD (D.comps.idxOf f) D.first

/-- How these are computed: the colours by the scan of the tree (`scan`, src/reparation/tree_scan.py:186-217), the base constants by `repairLists` (`lists`, C30), and the cell of a variable
is the constant of its colour (`cell`, src/reparation/tree_scan.py:134-150). `enough` is C78: as many cells are reserved as there are stores. -/
structure Driver.Gives (D : Driver) (P : Prog) (W : Written) (T : String → DTree String) (cell : String → String → Option Nat) : Prop where
  nodup : D.comps.Nodup
  all : ∀ f F, P.fns f = some F → f ∈ D.comps
  scan : ∀ f F, P.fns f = some F → treeScan (D.web f) (scanTree W T f) (D.num f) = some (D.colour f)
  enough : ∀ f F, P.fns f = some F → (allStores (scanTree W T f)).length ≤ D.num f
  used : ∀ f F, P.fns f = some F → ∀ v c, D.colour f v = some c → c ∈ D.used f
  lists : repairLists (D.comps.map fun f => (D.num f, D.used f)) D.first = some (D.bases, D.last)
  cell : ∀ f F, P.fns f = some F → ∀ v, cell f v = (D.colour f v).bind (slotAddress (D.baseText f) (D.num f))

/-! ### Proofs -/

/-- The number of cells between the base constant of a component and the next one. -/
def width (l : Nat × List Nat) : Nat := if l.1 = 0 then 0 else (l.2.max?.map (· + 1)).getD 0

theorem base_advances {base b : String} {l : Nat × List Nat} (h : nextBase base l.1 l.2 = some b) : intOf base + 32 * width l ≤ intOf b := by
  obtain ⟨h1, h2⟩ := nextBase_eq h
  unfold width
  split
  · omega
  · rename_i hn
    cases e : l.2.max? with
    | none => simpa using h1
    | some m =>
      have := (h2 hn m (max?_mem e)).2
      simp only [Option.map_some, Option.getD_some]
      omega

theorem lists_apart : ∀ (ls : List (Nat × List Nat)) (base : String) (bases : List String) (fin : String), repairLists ls base = some (bases, fin) →
    bases.length = ls.length ∧ intOf base ≤ intOf fin ∧ (∀ (j : Nat) (b : String), bases[j]? = some b → intOf base ≤ intOf b) ∧
    ∀ (i : Nat) (l : Nat × List Nat) (b : String), ls[i]? = some l → bases[i]? = some b → intOf b + 32 * width l ≤ intOf fin ∧
      ∀ (j : Nat) (b' : String), i < j → bases[j]? = some b' → intOf b + 32 * width l ≤ intOf b' := by
  intro ls
  induction ls with
  | nil =>
    intro base bases fin h
    cases h
    exact ⟨rfl, Nat.le_refl _, by intro j b hb; simp at hb, by intro i l b hl; simp at hl⟩
  | cons l ls ih =>
    intro base bases fin h
    unfold repairLists at h
    obtain ⟨b, hb, hr⟩ := Option.bind_eq_some_iff.1 h
    obtain ⟨⟨bs, fin'⟩, hr', he⟩ := Option.map_eq_some_iff.1 hr
    cases he
    obtain ⟨i1, i2, i3, i4⟩ := ih b bs _ hr'
    have hadv := base_advances hb
    show _ ∧ intOf base ≤ intOf fin' ∧ _ ∧ ∀ (i : Nat) (l : Nat × List Nat) (b : String), _ → _ → intOf b + 32 * width l ≤ intOf fin' ∧ _
    have i2' : intOf b ≤ intOf fin' := i2
    refine ⟨by simp [i1], by omega, ?_, ?_⟩
    · intro j c hc
      cases j with
      | zero => cases hc; exact Nat.le_refl _
      | succ j =>
        have := i3 j c hc
        omega
    · intro i l' c hl hc
      cases i with
      | zero =>
        cases hl
        cases hc
        refine ⟨by omega, ?_⟩
        intro j b' hj hb'
        cases j with
        | zero => omega
        | succ j =>
          have := i3 j b' hb'
          omega
      | succ i =>
        obtain ⟨k1, k2⟩ := i4 i l' c hl hc
        refine ⟨k1, ?_⟩
        intro j b' hj hb'
        cases j with
        | zero => omega
        | succ j => exact k2 j b' (by omega) hb'

/-- The base address and the number of cells of a component. -/
def Driver.base (D : Driver) (f : String) : Nat := intOf (D.baseText f)
def Driver.size (D : Driver) (f : String) : Nat := width (D.num f, D.used f)

section
variable {D : Driver} {P : Prog} {W : Written} {T : String → DTree String} {cell : String → String → Option Nat} (h : D.Gives P W T cell)
include h

theorem Driver.Gives.at {f : String} {F : Fn} (hF : P.fns f = some F) :
    (D.comps.map fun f => (D.num f, D.used f))[D.comps.idxOf f]? = some (D.num f, D.used f) ∧ D.bases[D.comps.idxOf f]? = some (D.baseText f) := by
  have hm := h.all f F hF
  have hlt := idxOf_lt_length_of_mem hm
  have hlen : D.bases.length = D.comps.length := by
    have := (lists_apart _ _ _ _ h.lists).1
    simpa using this
  refine ⟨?_, ?_⟩
  · rw [getElem?_map, getElem?_eq_getElem hlt, getElem_idxOf hlt]
    rfl
  · unfold Driver.baseText
    rw [getD_eq_getElem?_getD, getElem?_eq_getElem (by omega)]
    rfl

theorem Driver.Gives.address {f : String} {F : Fn} (hF : P.fns f = some F) {v : String} {c : Nat} (hc : D.colour f v = some c) :
    cell f v = some (D.base f + 32 * c) ∧ c < D.size f := by
  have hlt : c < D.num f := Nat.lt_of_lt_of_le (colours_below_stores (h.scan f F hF) v c hc) (h.enough f F hF)
  constructor
  · rw [h.cell f F hF, hc, Option.bind_some]
    unfold slotAddress slotConstants
    rw [getElem?_map, getElem?_range hlt]
    simp [intOf_hexOf, Driver.base]
  · unfold Driver.size width
    rw [if_neg (by omega)]
    have hu := h.used f F hF v c hc
    cases e : (D.used f).max? with
    | none => rw [max?_eq_none_iff.1 e] at hu; cases hu
    | some m =>
      have := le_max e c hu
      simp only [Option.map_some, Option.getD_some]
      omega

/-- The cells of the components come from their colours and are apart. -/
theorem cells_of_driver (hu : Uses P W cell T) (honce : ∀ f F, P.fns f = some F → (allStores (scanTree W T f)).Nodup) :
    Cells P W cell T D.base D.size := by
  refine ⟨hu, honce, ?_, ?_, ?_⟩
  · intro f F hF
    refine ⟨_, _, _, h.scan f F hF, ?_⟩
    intro v
    cases e : D.colour f v with
    | none => rw [h.cell f F hF, e]; rfl
    | some c => rw [(h.address hF e).1]; rfl
  · intro f F hF v a ha
    cases e : D.colour f v with
    | none => rw [h.cell f F hF, e] at ha; cases ha
    | some c =>
      obtain ⟨h1, h2⟩ := h.address hF e
      rw [ha] at h1
      cases h1
      omega
  · intro f F g G hF hG hne
    obtain ⟨f1, f2⟩ := h.at hF
    obtain ⟨g1, g2⟩ := h.at hG
    obtain ⟨-, -, -, key⟩ := lists_apart _ _ _ _ h.lists
    have hidx : D.comps.idxOf f ≠ D.comps.idxOf g := fun e => hne ((idxOf_inj (h.all f F hF)).1 e)
    rcases Nat.lt_or_gt_of_ne hidx with hlt | hlt
    · exact .inl ((key _ _ _ f1 f2).2 _ _ hlt g2)
    · exact .inr ((key _ _ _ g1 g2).2 _ _ hlt f2)

/-- The cells are between the constant of the program before the repair, and the one that replaces it. -/
theorem cells_reserved {f : String} {F : Fn} (hF : P.fns f = some F) {v : String} {a : Nat} (ha : cell f v = some a) :
    intOf D.first ≤ a ∧ a + 32 ≤ intOf D.last := by
  cases e : D.colour f v with
  | none => rw [h.cell f F hF, e] at ha; cases ha
  | some c =>
    obtain ⟨h1, h2⟩ := h.address hF e
    rw [ha] at h1
    cases h1
    obtain ⟨f1, f2⟩ := h.at hF
    obtain ⟨-, -, k1, k2⟩ := lists_apart _ _ _ _ h.lists
    have e1 := k1 _ _ f2
    have e2 := (k2 _ _ _ f1 f2).1
    have e3 : D.size f = width (D.num f, D.used f) := rfl
    have e4 : D.base f = intOf (D.baseText f) := rfl
    omega

end

end Grey.Kept
