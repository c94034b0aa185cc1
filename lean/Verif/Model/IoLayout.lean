import Verif.Model.Decoder
import Verif.Model.Process

/-!
Model of `/repo/spaudiopy/io.py` 518-593: `load_layout` and `save_layout`.  Line numbers refer to that file.
-/

namespace Verif.Io

open Verif.Utils Verif.Decoder Verif.Process Real

/-- A number in a JSON file (`io.py` 521, 593): without fraction and exponent it is read as `int`, otherwise as `float`. -/
structure JNum where
  value : ℝ
  isInt : Bool

/-- One element of `Loudspeakers` in a layout file (`io.py` 526-541, 576-590); absent keys are `none`. -/
structure LsEntry where
  azi : Option JNum
  ele : Option JNum
  r : Option JNum
  gain : Option JNum
  imag : Option Bool
  channel : Option ℕ

/-- A one-dimensional array of numbers with its dtype (`int64` or `float64`; `io.py` 526-533). -/
structure NumArr where
  isInt : Bool
  values : List ℝ

/-- A loudspeaker setup with its attribute `ls_gains` (`decoder.py` 79, `io.py` 550). -/
structure Layout where
  L : ℕ
  setup : Setup L
  gains : NumArr

/-- `[ls[key] for ls in ls_data]`, `KeyError` if the key is missing somewhere (`io.py` 526-541). -/
def field {α : Type} (ls : List LsEntry) (key : LsEntry → Option α) : Py (List α) :=
  ls.mapM fun e => match key e with
    | some v => .ok v
    | none => .error .keyError

/-- `np.array(list)` of JSON numbers (`io.py` 526-533): integers only if all are and there is at least one. -/
def numArr (xs : List JNum) : NumArr := ⟨!xs.isEmpty && xs.all JNum.isInt, xs.map JNum.value⟩

/-- `io.py` 531-536: the gains, or ones of the dtype of the azimuths. -/
def layoutGains (ls : List LsEntry) (azi : List JNum) : NumArr :=
  match field ls LsEntry.gain with
  | .ok gs => numArr gs
  | .error _ => ⟨(numArr azi).isInt, azi.map fun _ => 1⟩

/-- `io.py` 537-541: the flags, or all `False`. -/
def layoutFlags (ls : List LsEntry) : List Bool :=
  match field ls LsEntry.imag with
  | .ok bs => bs
  | .error _ => ls.map fun _ => false

/-- `io.py` 544-546, 552-554: position of one loudspeaker. -/
noncomputable def place (azi ele r : ℝ) : Vec3 :=
  let p := sph2cart (deg2rad azi) (deg2rad (90 - ele)) r
  ![p.1, p.2.1, p.2.2]

/-- Positions of all loudspeakers of the file, real and imaginary (`io.py` 526-530, 544-546, 552-554). -/
noncomputable def places (azi ele r : List JNum) : List Vec3 :=
  (azi.zip (ele.zip r)).map fun t => place t.1.value t.2.1.value t.2.2.value

/-- `io.py` 547-558: the setup from the positions of the real and the imaginary loudspeakers. -/
noncomputable def buildLayout (qhull : (L : ℕ) → (Fin L → Vec3) → Py (List (Face L))) (lstsq : Mat3 → Mat3) (ndesign : ℤ → Option (List Vec3))
    (real imag : List Vec3) (gains : NumArr) (listener : Option Vec3) (nKernel : Option ℤ) : Py Layout :=
  (mkSetup qhull (fun l : Fin real.length => real[l]) (listener.getD 0)).bind fun s =>
    let out := ambisonicsSetup qhull lstsq ndesign s true (some imag) none nKernel
    out.1.map fun _ => { L := real.length, setup := out.2, gains := gains }

/-- `io.py` 518-558 `load_layout` for the loudspeaker entries of the file.  Without loudspeakers `isImaginary` is a float array, so `~` raises
`TypeError`.  Simplifications: the file exists and is a layout; values are numbers resp. booleans and fit into machine words. -/
noncomputable def loadLayout (qhull : (L : ℕ) → (Fin L → Vec3) → Py (List (Face L))) (lstsq : Mat3 → Mat3) (ndesign : ℤ → Option (List Vec3))
    (ls : List LsEntry) (listener : Option Vec3) (nKernel : Option ℤ) : Py Layout :=
  (field ls LsEntry.azi).bind fun azi => (field ls LsEntry.ele).bind fun ele => (field ls LsEntry.r).bind fun r =>
  let gains := layoutGains ls azi
  let flags := layoutFlags ls
  if ls = [] then .error .typeError
  else
    let pos := (places azi ele r).zip flags
    buildLayout qhull lstsq ndesign ((pos.filter fun x => !x.2).map Prod.fst) ((pos.filter fun x => x.2).map Prod.fst) gains listener nKernel

/-- Python's `round(x, 2)` (`io.py` 581-583). -/
noncomputable def round2 (x : ℝ) : ℝ := npRound (100 * x) / 100

open Classical in
/-- One entry written by `save_layout` (`io.py` 576-590); `ls_idx in np.asarray(None)` is `False`. -/
noncomputable def saveEntry {L : ℕ} (am : Ambi L) (gains : NumArr) (i : Fin (L + am.M)) : Py LsEntry :=
  let p := cart2sph (am.hull.points i 0) (am.hull.points i 1) (am.hull.points i 2) false false
  let im := decide (i ∈ am.imaginary.getD [])
  let entry (g : JNum) : LsEntry :=
    { azi := some ⟨round2 (rad2deg p.1), false⟩, ele := some ⟨round2 (90 - rad2deg p.2.1), false⟩, r := some ⟨round2 p.2.2, false⟩,
      gain := some g, imag := some im, channel := some (i + 1) }
  if im then .ok (entry ⟨0, false⟩)
  else
    match gains.values[(i : ℕ)]? with
    | some g => .ok (entry ⟨g, gains.isInt⟩)
    | none => .error .indexError

/-- Whether the entry holds an element of an `int64` array (`io.py` 587-589, 593). -/
def LsEntry.npInt (e : LsEntry) : Bool :=
  match e.gain with
  | some g => g.isInt
  | none => false

/-- `io.py` 561-593 `save_layout`: the entries written.  `json.dump` raises `TypeError` for elements of integer arrays. -/
noncomputable def saveLayout (lay : Layout) : Py (List LsEntry) :=
  match lay.setup.ambi with
  | none => .error .valueError
  | some am =>
    ((List.finRange (lay.L + am.M)).mapM (saveEntry am lay.gains)).bind fun es =>
      if es.any LsEntry.npInt then .error .typeError else .ok es

end Verif.Io
