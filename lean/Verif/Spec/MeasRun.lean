import Verif.Model.MeasRun
import Mathlib.Data.List.Basic

/-
What a user expects of the measurement file: which names are in it.

Options are bits of numbers, as on the command line: bit 14 of `--meas` is `MEAS_PSP_A`, and so on.
-/

namespace Jaxions.MeasRun

variable {R : Type}

/-- Bit `i` of `w`. -/
def Bit (w i : ℕ) : Prop := w.testBit i = true

/-- Something is asked besides the configuration (bit 12). -/
def Something (q : Req R) : Prop := ∃ i, i ≠ 12 ∧ Bit q.meas i

/-- The spectrum of the energy is needed: for itself, the reduced map, or the smoothed maps. -/
def Pow (q : Req R) : Prop := Bit q.meas 14 ∨ Bit q.meas 10 ∨ Bit q.meas 19

/-- Spectra of numbers are asked. -/
def Numbers (q : Req R) : Prop := Bit q.meas 16 ∨ Bit q.meas 17 ∨ Bit q.meas 18

/-- A map in two dimensions of the energy is asked. -/
def PlaneE (q : Req R) : Prop := Bit q.maps 10 ∨ Bit q.maps 11 ∨ Bit q.maps 16

/-- The energy per site is needed. -/
def EnergyMap (q : Req R) : Prop :=
  Bit q.meas 3 ∨ Bit q.meas 9 ∨ Bit q.meas 10 ∨ Bit q.meas 14 ∨ Bit q.meas 15 ∨ Bit q.meas 19 ∨
    PlaneE q

/-- A reduced map of the energy is made. -/
def Reduces (q : Req R) : Prop := Bit q.meas 10 ∧ 0 < q.redmap

/-- Number of the bit of a mask. -/
def M.pos : M → ℕ
  | .flat => 0 | .vil => 1 | .vil2 => 2 | .redo => 3 | .gaus => 4 | .diff => 5 | .ball => 6
  | .axit => 9 | .axit2 => 10 | .axitv => 11

/-- Masks that make sense for a kind of field; for the other kinds all of them are let through. -/
def Fits : Kind → M → Prop
  | .saxion, k => k ∈ [M.flat, .vil, .vil2, .redo, .gaus, .diff, .ball]
  | .axion, k => k ∈ [M.flat, .axit, .axit2, .axitv]
  | _, _ => True

/-- The mask is asked for and makes sense. -/
def Used (q : Req R) (k : M) : Prop := Bit q.mask k.pos ∧ Fits q.field k

/-- Masks that have no radius. -/
def Plain (k : M) : Prop := k = .flat ∨ k = .vil ∨ k = .vil2

/-- `l` is how a mask is called in names: `Vi`, or `Red_2.00`. -/
inductive Called (F : Fmt R) (q : Req R) : M → List String → Prop
  | plain {k} : Plain k → Called F q k [k.lab]
  | radius {k r} : ¬ Plain k → r ∈ q.radii → Called F q k [k.lab, F.lab r]

/-- The group of strings is in the file: coordinates are asked; or a map that is not too long; or no
map and no mask. -/
def Group (q : Req R) : Prop :=
  (q.field = .saxion ∧ (Bit q.meas 7 ∨ (Bit q.meas 6 ∧ q.few) ∨ (¬ Bit q.meas 6 ∧ ¬ Bit q.meas 13))) ∨
  (q.field = .axion ∧ q.mend ∧ Bit q.meas 13)

/-- Spectra of a mask are skipped: only its energy is asked. -/
def Skipped (q : Req R) (k : M) : Prop := k = .redo ∧ q.maskenergyonly

/-- What is in the file, if something is asked. -/
inductive Item (F : Fmt R) (pos : R → Bool) (q : Req R) : Name → Prop
  | accel : q.mom → Item F pos q ⟨"/bins", ["fsacceleration"]⟩
  | m : Bit q.maps 0 ∨ Bit q.maps 2 → Item F pos q ⟨"/map", ["m"]⟩
  | v : Bit q.maps 0 ∨ Bit q.maps 2 → Item F pos q ⟨"/map", ["v"]⟩
  | mp : Bit q.maps 4 ∨ Bit q.maps 5 → Item F pos q ⟨"/mapp", ["m"]⟩
  | vp : Bit q.maps 4 ∨ Bit q.maps 5 → Item F pos q ⟨"/mapp", ["v"]⟩
  | density : Bit q.meas 9 → Item F pos q ⟨"/energy/density", ["theta"]⟩
  | contrast : Bit q.meas 3 → Item F pos q ⟨"/bins", ["contB"]⟩
  | plane : Bit q.maps 16 → Item F pos q ⟨"/map", ["E"]⟩
  | proj : Bit q.maps 10 ∨ Bit q.maps 11 → Item F pos q ⟨"/map", ["P"]⟩
  | averages : EnergyMap q ∨ Bit q.meas 8 → Item F pos q ⟨"/energy", []⟩
  | masked {r} : Pow q → q.field = .axion → Used q .axit → r ∈ q.radii →
      Item F pos q ⟨"/pSpectrum", ["sPmasked", F.lab r]⟩
  | masked2 {r} : Pow q → q.field = .axion → Used q .axit2 → r ∈ q.radii →
      Item F pos q ⟨"/pSpectrum", ["sPmasked2", F.lab r]⟩
  | maskedV : Pow q → q.field = .axion → Used q .axitv → Item F pos q ⟨"/pSpectrum", ["sPmaskedV"]⟩
  | power : Pow q → Item F pos q ⟨"/pSpectrum", ["sP"]⟩
  | smoothed {i} : Bit q.meas 19 → i ≤ q.steps → Item F pos q ⟨"/bins", ["cont" ++ F.d3 i ++ "B"]⟩
  | smoothedMap {i} : Bit q.meas 19 → i ≤ q.steps → Item F pos q ⟨"/map", ["P" ++ F.d3 i]⟩
  | reduced : Reduces q → ¬ Bit q.meas 19 → Item F pos q ⟨"/energy/rdensity", ["theta"]⟩
  | notReduced : Reduces q → Bit q.meas 19 → Item F pos q ⟨"/energy/density", ["theta"]⟩
  | strings : Group q → Item F pos q ⟨"/string", []⟩
  | map : (q.field = .saxion ∧ Bit q.meas 6 ∧ (Bit q.meas 7 ∨ q.few)) ∨
      (q.field = .axion ∧ q.mend ∧ Bit q.meas 13) → Item F pos q ⟨"/string", ["data"]⟩
  | coords : q.field = .saxion → Bit q.meas 7 → Item F pos q ⟨"/string", ["codata"]⟩
  | W {k l} : Used q k → k ≠ .flat → k ≠ .axitv → Bit q.meas 13 ∨ (Numbers q ∧ k ≠ .axit2) →
      Called F q k l → Item F pos q ⟨"/mSpectrum", "W" :: l⟩
  | Wmap {k l} : Used q k → k ≠ .flat → k ≠ .axitv → Bit q.meas 13 → Called F q k l →
      Item F pos q ⟨"/map", "W" :: l⟩
  | strEnergy {r} : Numbers q → Used q .redo → Bit q.strmeas 2 → Group q → r ∈ q.radii →
      Item F pos q ⟨"/string", ["rmask", F.lab r]⟩
  | maskedEnergy {r} : Numbers q → Used q .redo → r ∈ q.radii → pos r →
      Item F pos q ⟨"/energy", ["Redmask", F.lab r]⟩
  | num {k l b n} : Numbers q → Used q k → k ≠ .axitv → ¬ Skipped q k → Called F q k l → Bit q.nrt b →
      (b, n) ∈ [(0, "sK"), (1, "sG"), (4, "sCK"), (5, "sCG")] →
      Item F pos q ⟨"/eSpectrum", n :: l⟩
  | numV {k l b n} : Numbers q → Used q k → k ≠ .axitv → ¬ Skipped q k → Called F q k l → Bit q.nrt b →
      q.massive → (b, n) ∈ [(2, "sV"), (3, "sS"), (6, "sCV"), (7, "sCS")] →
      Item F pos q ⟨"/eSpectrum", n :: l⟩
  | numS {k l b n} : q.field = .saxion → Bit q.meas 17 → Used q k → k ≠ .axitv → ¬ Skipped q k →
      Called F q k l → Bit q.nrt b → (b, n) ∈ [(0, "sKS"), (1, "sGS"), (2, "sVS")] →
      Item F pos q ⟨"/eSpectrum", n :: l⟩
  | modes : Numbers q → q.index = 0 ∨ Bit q.meas 18 → Item F pos q ⟨"/nSpectrum", ["nmodes"]⟩
  | meank : Numbers q → q.index = 0 ∨ Bit q.meas 18 → Item F pos q ⟨"/nSpectrum", ["averagek"]⟩
  | theta : q.field = .saxion ∨ q.field = .axion → Bit q.meas 0 → Item F pos q ⟨"/bins", ["thetaB"]⟩
  | rho : q.field = .saxion → Bit q.meas 1 → Item F pos q ⟨"/bins", ["rhoB"]⟩
  | log : q.field = .saxion ∨ q.field = .axion → Bit q.meas 2 →
      Item F pos q ⟨"/bins", ["logtheta2B"]⟩
  | p2 : q.field = .naxion → Bit q.meas 0 → Item F pos q ⟨"/bins", ["thetaP2"]⟩

/-- The names in the file. -/
def Asked (F : Fmt R) (pos : R → Bool) (q : Req R) (n : Name) : Prop := Something q ∧ Item F pos q n

/-- A mask whose name needs a radius is going to be used. -/
def NeedsRadius (q : Req R) : Prop :=
  (Pow q ∧ q.field = .axion ∧ (Used q .axit ∨ Used q .axit2)) ∨
  ((Bit q.meas 13 ∨ Numbers q) ∧ ∃ k, ¬ Plain k ∧ k ≠ .axitv ∧ Used q k)

/-- Numbers are printed in different ways when they are different, and not as nothing. -/
def Fmt.Good (F : Fmt R) : Prop := (∀ i j, F.d3 i = F.d3 j → i = j) ∧ ∀ i, F.d3 i ≠ ""

/-- The call comes to its end: radii are given if they are needed; not both projections are asked; not
the density, the reduced density and the smoothed maps together; and maps of masks have labels that
are different. -/
def Ends (F : Fmt R) (q : Req R) : Prop :=
  (NeedsRadius q → q.radii ≠ []) ∧ ¬ (Bit q.maps 10 ∧ Bit q.maps 11) ∧
  ¬ (Bit q.meas 9 ∧ Reduces q ∧ Bit q.meas 19) ∧
  (Bit q.meas 13 → (∃ k, ¬ Plain k ∧ k ≠ .axitv ∧ Used q k) → (q.radii.map F.lab).Nodup)

/-- How a mask with this radius is called; a mask that has no radius may be given one. -/
inductive Labels (F : Fmt R) : M → Option R → List String → Prop
  | plain {k r} : Plain k → Labels F k r [k.lab]
  | radius {k r} : ¬ Plain k → Labels F k (some r) [k.lab, F.lab r]

/-- The map of strings is made on the lattice itself: the last energy was not reduced. -/
def Whole (q : Req R) (red : Bool) : Prop :=
  (EnergyMap q ∨ Bit q.meas 8 → ¬ (Reduces q ∧ ¬ Bit q.meas 19)) ∧
  (¬ (EnergyMap q ∨ Bit q.meas 8) → red = false)

/-- Masks made from strings. -/
def OfStrings (k : M) : Prop := k = .redo ∨ k = .gaus ∨ k = .diff ∨ k = .ball

/-- Masks that are arrays, not bits of the map of strings. -/
def InArray (k : M) : Prop := k = .gaus ∨ k = .diff

/-- What is in the sets that have nothing to do with masks; `red` is the flag the last call left, `full`
tells whether the old map of strings belongs to the lattice itself. -/
inductive Holds (F : Fmt R) (q : Req R) (red full : Bool) : Name → Val R → Prop
  | accel : Holds F q red full ⟨"/bins", ["fsacceleration"]⟩ .accel
  | slice {g c} : g ∈ ["/map", "/mapp"] → c ∈ ["m", "v"] → Holds F q red full ⟨g, [c]⟩ .slice
  | density : Bit q.meas 9 → Holds F q red full ⟨"/energy/density", ["theta"]⟩ (.density .energy)
  | notReduced : Reduces q → Bit q.meas 19 →
      Holds F q red full ⟨"/energy/density", ["theta"]⟩ (.density (.smooth q.steps))
  | reduced : Reduces q → ¬ Bit q.meas 19 → Holds F q red full ⟨"/energy/rdensity", ["theta"]⟩ (.density .reduced)
  | contrast : Holds F q red full ⟨"/bins", ["contB"]⟩ (.contrast .energy)
  | plane : Holds F q red full ⟨"/map", ["E"]⟩ (.plane .energy)
  | proj : Bit q.maps 10 → Holds F q red full ⟨"/map", ["P"]⟩ (.proj (some (false, .energy)))
  | projSq : Bit q.maps 11 → Holds F q red full ⟨"/map", ["P"]⟩ (.proj (some (true, .energy)))
  | averages : Holds F q red full ⟨"/energy", []⟩ .averages
  | masked {r} : r ∈ q.radii → Holds F q red full ⟨"/pSpectrum", ["sPmasked", F.lab r]⟩
      (.power (.masked ⟨.axit, some r, true⟩))
  | masked2 {r} : r ∈ q.radii → Holds F q red full ⟨"/pSpectrum", ["sPmasked2", F.lab r]⟩
      (.power (.masked ⟨.axit2, some r, true⟩))
  | maskedV : Holds F q red full ⟨"/pSpectrum", ["sPmaskedV"]⟩ (.power (.masked ⟨.axitv, none, true⟩))
  | power : Holds F q red full ⟨"/pSpectrum", ["sP"]⟩ (.power .energy)
  | smoothed {i} : i ≤ q.steps → Holds F q red full ⟨"/bins", ["cont" ++ F.d3 i ++ "B"]⟩ (.contrast (.smooth i))
  | smoothedMap {i} : i ≤ q.steps →
      Holds F q red full ⟨"/map", ["P" ++ F.d3 i]⟩ (.proj (some (false, .smooth i)))
  | strings : Holds F q red full ⟨"/string", []⟩ .strings
  | map {w} : q.field = .saxion → (w = true ↔ Whole q red) →
      Holds F q red full ⟨"/string", ["data"]⟩ (.stringMap w)
  | oldMap : q.field = .axion → Holds F q red full ⟨"/string", ["data"]⟩ (.stringMap full)
  | coords : Holds F q red full ⟨"/string", ["codata"]⟩ (.coords .coords)
  | modes : Holds F q red full ⟨"/nSpectrum", ["nmodes"]⟩ .modes
  | meank : Holds F q red full ⟨"/nSpectrum", ["averagek"]⟩ .meank
  | hist {x} : x ∈ ["thetaB", "rhoB", "logtheta2B", "thetaP2"] → Holds F q red full ⟨"/bins", [x]⟩ (.hist x)

/-- A mask of the complex field that is called `l`: it was asked for; its radius is one of those given; and
it is a mask of what it should be unless the map of strings was made on a reduced lattice. -/
structure SaxMask (F : Fmt R) (q : Req R) (red : Bool) (l : List String) (m : Msk R) : Prop where
  used : Used q m.kind
  called : Labels F m.kind m.r l
  radius : ∀ r, m.r = some r → r ∈ q.radii
  ok : m.ok = true ↔ (OfStrings m.kind → Whole q red)

/-- Where the spectra of a mask find it: nowhere, if the mask is a function of the field; in the map of
strings; or in an array, unless it has been lost. -/
inductive Finds (m : Msk R) (lost : Prop) : Seen R → Prop
  | self : Plain m.kind → Finds m lost .self
  | bits : m.kind = .redo ∨ m.kind = .ball → Finds m lost (.sData (some m))
  | array : InArray m.kind → ¬ lost → Finds m lost (.array (.mask m))
  | lost : InArray m.kind → lost → Finds m lost (.array .junk)

/-- Spectra of the whole field are made before any mask. -/
def FlatFirst (q : Req R) : Prop := ¬ Bit q.meas 13 ∧ Used q .flat ∧ ∃ i < 8, Bit q.nrt i

/-- The energy is at hand when masks of axitons are made. -/
def AxGood (q : Req R) : Prop :=
  EnergyMap q ∧ ¬ Bit q.meas 19 ∧ (Reduces q → FlatFirst q) ∧ (¬ Pow q → ¬ FlatFirst q)

/-- What is at hand is the reduced energy. -/
def AxReduced (q : Req R) : Prop := Reduces q ∧ ¬ Bit q.meas 19 ∧ ¬ FlatFirst q

end Jaxions.MeasRun
