import Verif.Getter
/-!
# The tests of crates/jget-rs on the model

Every assertion of crates/jget-rs/tests, evaluated.  `.into()` is the identity here, except where it makes an option.
-/

namespace JBytes.Vectors

/-- The name of a getter with its return type and its value. -/
abbrev Got := Text × Text × Option GVal

/-- The getters of a field with attributes `items`, when `v` stands at `path`. -/
def got (items : List AttrItem) (ident : Text) (tokens : List Text) (path : Text) (v : GVal)
    (into : GVal → Option GVal := some) : Option (List Got) :=
  (GetAttrs.parse items).map fun a => (fieldGetters a ident (tokensText tokens)).map fun g =>
    (g.name, g.ret, g.run into fun p => if p = path then some v else none)

def tVec16 : List Text := [['V', 'e', 'c'], ['<'], ['u', '1', '6'], ['>']]
def tOptVec16 : List Text := [['O', 'p', 't', 'i', 'o', 'n'], ['<'], ['V', 'e', 'c'], ['<'], ['u', '1', '6'], ['>'], ['>']]
def tStr : List Text := [['&'], ['\''], ['a'], ['s', 't', 'r']]
def tOptStr : List Text := [['O', 'p', 't', 'i', 'o', 'n'], ['<'], ['&'], ['\''], ['a'], ['s', 't', 'r'], ['>']]

/-! ## tests/test_struct_get.rs -/

example : got [.tag "get"] ['v', 'a', 'l', 'u', 'e', '1'] [['u', '1', '6']] ['v', 'a', 'l', 'u', 'e', '1'] (.num 0) = some [(['v', 'a', 'l', 'u', 'e', '1'], ['u', '1', '6', ' '], some (.num 0))] := by
  decide +kernel
example : got [.prop "get" ['"', 'v', 'a', 'l', 'u', 'e', '2', ':', 'u', '3', '2', '"']] ['v', 'a', 'l', 'u', 'e', '2'] [['u', '1', '6']] ['v', 'a', 'l', 'u', 'e', '2'] (.num 0) =
    some [(['v', 'a', 'l', 'u', 'e', '2'], ['u', '3', '2'], some (.num 0))] := by decide +kernel
example : got [.prop "get_option" ['"', 'v', 'a', 'l', 'u', 'e', '3', ':', 'u', '1', '6', '"']] ['v', 'a', 'l', 'u', 'e', '3'] [['u', '1', '6']] ['v', 'a', 'l', 'u', 'e', '3'] (.num 0) =
    some [(['v', 'a', 'l', 'u', 'e', '3'], ['O', 'p', 't', 'i', 'o', 'n', '<', 'u', '1', '6', '>'], some (.present (.num 0)))] := by decide +kernel
example : got [.prop "get" ['"', 'v', 'a', 'l', 'u', 'e', '4', ':', 'u', '3', '2', '"']] ['v', 'a', 'l', 'u', 'e'] [['u', '1', '6']] ['v', 'a', 'l', 'u', 'e'] (.num 0) =
    some [(['v', 'a', 'l', 'u', 'e', '4'], ['u', '3', '2'], some (.num 0))] := by decide +kernel

/-! ## tests/test_struct_get_attr.rs -/

example : got [.prop "get" ['"', 'd', 'a', 't', 'a', '.', 'v', 'a', 'l', 'u', 'e', ':', 'u', '1', '6', ',', 'd', 'a', 't', 'a', '.', 'j', 'k', 'c', ':', 'u', '1', '6', '"']] ['d', 'a', 't', 'a'] [['J', 'g', 'e', 't', 'D', 'a', 't', 'a', 'E', 'x', 'a', 'm', 'p', 'l', 'e']] ['d', 'a', 't', 'a', '.', 'v', 'a', 'l', 'u', 'e'] (.num 0) =
    some [(['v', 'a', 'l', 'u', 'e'], ['u', '1', '6'], some (.num 0)), (['j', 'k', 'c'], ['u', '1', '6'], none)] := by decide +kernel
example : got [.prop "get" ['"', 'd', 'a', 't', 'a', '.', 'v', 'a', 'l', 'u', 'e', ':', 'u', '1', '6', ',', 'd', 'a', 't', 'a', '.', 'j', 'k', 'c', ':', 'u', '1', '6', '"']] ['d', 'a', 't', 'a'] [['J', 'g', 'e', 't', 'D', 'a', 't', 'a', 'E', 'x', 'a', 'm', 'p', 'l', 'e']] ['d', 'a', 't', 'a', '.', 'j', 'k', 'c'] (.num 0) =
    some [(['v', 'a', 'l', 'u', 'e'], ['u', '1', '6'], none), (['j', 'k', 'c'], ['u', '1', '6'], some (.num 0))] := by decide +kernel
example : got [.prop "get_option" ['"', 'd', 'a', 't', 'a', '.', 'v', 'a', 'l', 'u', 'e', ':', 'u', '1', '6', ',', 'd', 'a', 't', 'a', '.', 'j', 'k', 'c', ':', 'u', '1', '6', '"']] ['d', 'a', 't', 'a'] [['J', 'g', 'e', 't', 'D', 'a', 't', 'a', 'E', 'x', 'a', 'm', 'p', 'l', 'e']] ['d', 'a', 't', 'a', '.', 'j', 'k', 'c']
    (.num 0) =
    some [(['v', 'a', 'l', 'u', 'e'], ['O', 'p', 't', 'i', 'o', 'n', '<', 'u', '1', '6', '>'], none), (['j', 'k', 'c'], ['O', 'p', 't', 'i', 'o', 'n', '<', 'u', '1', '6', '>'], some (.present (.num 0)))] := by decide +kernel

/-! ## tests/test_struct_get_borrow.rs -/

example : got [.tag "get"] ['v', 'a', 'l', 'u', 'e', '1'] tStr ['v', 'a', 'l', 'u', 'e', '1'] (.other ['v', 'a', 'l', 'u', 'e', '1']) =
    some [(['v', 'a', 'l', 'u', 'e', '1'], ['&', ' ', '\'', 'a', ' ', 's', 't', 'r', ' '], some (.other ['v', 'a', 'l', 'u', 'e', '1']))] := by decide +kernel
example : got [.prop "get" ['"', 'v', 'a', 'l', 'u', 'e', '2', ':', '&', '\'', 'a', ' ', 's', 't', 'r', '"']] ['v', 'a', 'l', 'u', 'e', '2'] tStr ['v', 'a', 'l', 'u', 'e', '2'] (.other ['v', 'a', 'l', 'u', 'e', '2']) =
    some [(['v', 'a', 'l', 'u', 'e', '2'], ['&', '\'', 'a', ' ', 's', 't', 'r'], some (.other ['v', 'a', 'l', 'u', 'e', '2']))] := by decide +kernel
example : got [.prop "get" ['"', 'v', 'a', 'l', 'u', 'e', '3', ':', 'S', 't', 'r', 'i', 'n', 'g', '"']] ['v', 'a', 'l', 'u', 'e', '3'] tStr ['v', 'a', 'l', 'u', 'e', '3'] (.other ['v', 'a', 'l', 'u', 'e', '3']) =
    some [(['v', 'a', 'l', 'u', 'e', '3'], ['S', 't', 'r', 'i', 'n', 'g'], some (.other ['v', 'a', 'l', 'u', 'e', '3']))] := by decide +kernel
example : got [.prop "get_option" ['"', 'v', 'a', 'l', 'u', 'e', '4', ':', '&', '\'', 'a', ' ', 's', 't', 'r', '"']] ['v', 'a', 'l', 'u', 'e', '4'] tStr ['v', 'a', 'l', 'u', 'e', '4'] (.other ['v', 'a', 'l', 'u', 'e', '4']) =
    some [(['v', 'a', 'l', 'u', 'e', '4'], ['O', 'p', 't', 'i', 'o', 'n', '<', '&', '\'', 'a', ' ', 's', 't', 'r', '>'], some (.present (.other ['v', 'a', 'l', 'u', 'e', '4'])))] := by decide +kernel
example : got [.prop "get_option" ['"', 'v', 'a', 'l', 'u', 'e', '5', ':', 'S', 't', 'r', 'i', 'n', 'g', '"']] ['v', 'a', 'l', 'u', 'e', '5'] tStr ['v', 'a', 'l', 'u', 'e', '5'] (.other ['v', 'a', 'l', 'u', 'e', '5']) =
    some [(['v', 'a', 'l', 'u', 'e', '5'], ['O', 'p', 't', 'i', 'o', 'n', '<', 'S', 't', 'r', 'i', 'n', 'g', '>'], some (.present (.other ['v', 'a', 'l', 'u', 'e', '5'])))] := by decide +kernel
example : got [.tag "get_option"] ['v', 'a', 'l', 'u', 'e', '1'] tOptStr ['v', 'a', 'l', 'u', 'e', '1'] (.present (.other ['v', 'a', 'l', 'u', 'e', '1'])) (fun v => some (.present v))
    = some [(['v', 'a', 'l', 'u', 'e', '1'], ['O', 'p', 't', 'i', 'o', 'n', '<', 'O', 'p', 't', 'i', 'o', 'n', ' ', '<', ' ', '&', ' ', '\'', 'a', ' ', 's', 't', 'r', ' ', '>', ' ', '>'], some (.present (.present (.other ['v', 'a', 'l', 'u', 'e', '1']))))] := by
  decide +kernel
example : got [.prop "get_option" ['"', 'v', 'a', 'l', 'u', 'e', '2', ':', '&', '\'', 'a', ' ', 's', 't', 'r', '"']] ['v', 'a', 'l', 'u', 'e', '2'] tOptStr ['v', 'a', 'l', 'u', 'e', '2'] (.present (.other ['v', 'a', 'l', 'u', 'e', '2'])) =
    some [(['v', 'a', 'l', 'u', 'e', '2'], ['O', 'p', 't', 'i', 'o', 'n', '<', '&', '\'', 'a', ' ', 's', 't', 'r', '>'], some (.present (.other ['v', 'a', 'l', 'u', 'e', '2'])))] := by decide +kernel
example : got [.prop "get_option" ['"', 'v', 'a', 'l', 'u', 'e', '3', ':', 'S', 't', 'r', 'i', 'n', 'g', '"']] ['v', 'a', 'l', 'u', 'e', '3'] tOptStr ['v', 'a', 'l', 'u', 'e', '3'] (.present (.other ['v', 'a', 'l', 'u', 'e', '3'])) =
    some [(['v', 'a', 'l', 'u', 'e', '3'], ['O', 'p', 't', 'i', 'o', 'n', '<', 'S', 't', 'r', 'i', 'n', 'g', '>'], some (.present (.other ['v', 'a', 'l', 'u', 'e', '3'])))] := by decide +kernel

/-! ## tests/test_struct_get_default.rs and tests/test_enum_get_default.rs -/

example : (getDefaults [.prop "get_default" ['"', 'l', 'e', 'n', 'g', 't', 'h', ':', 'u', '1', '6', ',', 's', 'i', 'z', 'e', ':', 'u', '3', '2', '"']]).map (·.map defaultGetter) =
    some [(['l', 'e', 'n', 'g', 't', 'h'], ['O', 'p', 't', 'i', 'o', 'n', '<', 'u', '1', '6', '>']), (['s', 'i', 'z', 'e'], ['O', 'p', 't', 'i', 'o', 'n', '<', 'u', '3', '2', '>'])] := by decide +kernel

/-! ## tests/test_struct_get_string.rs -/

example : got [.tag "get"] ['v', 'a', 'l', 'u', 'e', '1'] [['S', 't', 'r', 'i', 'n', 'g']] ['v', 'a', 'l', 'u', 'e', '1'] (.other []) =
    some [(['v', 'a', 'l', 'u', 'e', '1'], ['S', 't', 'r', 'i', 'n', 'g', ' '], some (.other []))] := by decide +kernel
example : got [.prop "get" ['"', 'v', 'a', 'l', 'u', 'e', '2', ':', 'S', 't', 'r', 'i', 'n', 'g', '"']] ['v', 'a', 'l', 'u', 'e', '2'] [['S', 't', 'r', 'i', 'n', 'g']] ['v', 'a', 'l', 'u', 'e', '2'] (.other []) =
    some [(['v', 'a', 'l', 'u', 'e', '2'], ['S', 't', 'r', 'i', 'n', 'g'], some (.other []))] := by decide +kernel
example : got [.prop "get_option" ['"', 'v', 'a', 'l', 'u', 'e', '3', ':', 'S', 't', 'r', 'i', 'n', 'g', '"']] ['v', 'a', 'l', 'u', 'e', '3'] [['S', 't', 'r', 'i', 'n', 'g']] ['v', 'a', 'l', 'u', 'e', '3'] (.other []) =
    some [(['v', 'a', 'l', 'u', 'e', '3'], ['O', 'p', 't', 'i', 'o', 'n', '<', 'S', 't', 'r', 'i', 'n', 'g', '>'], some (.present (.other [])))] := by decide +kernel
example : got [.prop "get" ['"', 'v', 'a', 'l', 'u', 'e', '4', ':', '&', 'S', 't', 'r', 'i', 'n', 'g', '"']] ['v', 'a', 'l', 'u', 'e', '4'] [['S', 't', 'r', 'i', 'n', 'g']] ['v', 'a', 'l', 'u', 'e', '4'] (.other []) =
    some [(['v', 'a', 'l', 'u', 'e', '4'], ['&', 'S', 't', 'r', 'i', 'n', 'g'], some (.other []))] := by decide +kernel
example : got [.prop "get_option" ['"', 'v', 'a', 'l', 'u', 'e', '5', ':', '&', 'S', 't', 'r', 'i', 'n', 'g', '"']] ['v', 'a', 'l', 'u', 'e', '5'] [['S', 't', 'r', 'i', 'n', 'g']] ['v', 'a', 'l', 'u', 'e', '5'] (.other []) =
    some [(['v', 'a', 'l', 'u', 'e', '5'], ['O', 'p', 't', 'i', 'o', 'n', '<', '&', 'S', 't', 'r', 'i', 'n', 'g', '>'], some (.present (.other [])))] := by decide +kernel

/-! ## tests/test_struct_get_vec.rs -/

example : got [.tag "get"] ['v', 'a', 'l', 'u', 'e', '1'] tVec16 ['v', 'a', 'l', 'u', 'e', '1'] (.nums []) =
    some [(['v', 'a', 'l', 'u', 'e', '1'], ['V', 'e', 'c', ' ', '<', ' ', 'u', '1', '6', ' ', '>', ' '], some (.nums []))] := by decide +kernel
example : got [.prop "get" ['"', 'v', 'a', 'l', 'u', 'e', '2', ':', 'V', 'e', 'c', '<', 'u', '1', '6', '>', '"']] ['v', 'a', 'l', 'u', 'e', '2'] tVec16 ['v', 'a', 'l', 'u', 'e', '2'] (.nums []) =
    some [(['v', 'a', 'l', 'u', 'e', '2'], ['V', 'e', 'c', '<', 'u', '1', '6', '>'], some (.nums []))] := by decide +kernel
example : got [.prop "get_option" ['"', 'v', 'a', 'l', 'u', 'e', '3', ':', 'V', 'e', 'c', '<', 'u', '1', '6', '>', '"']] ['v', 'a', 'l', 'u', 'e', '3'] tVec16 ['v', 'a', 'l', 'u', 'e', '3'] (.nums []) =
    some [(['v', 'a', 'l', 'u', 'e', '3'], ['O', 'p', 't', 'i', 'o', 'n', '<', 'V', 'e', 'c', '<', 'u', '1', '6', '>', '>'], some (.present (.nums [])))] := by decide +kernel
example : got [.prop "get" ['"', 'v', 'a', 'l', 'u', 'e', '4', ':', '&', 'V', 'e', 'c', '<', 'u', '1', '6', '>', '"']] ['v', 'a', 'l', 'u', 'e', '4'] tVec16 ['v', 'a', 'l', 'u', 'e', '4'] (.nums []) =
    some [(['v', 'a', 'l', 'u', 'e', '4'], ['&', 'V', 'e', 'c', '<', 'u', '1', '6', '>'], some (.nums []))] := by decide +kernel
example : got [.prop "get_option" ['"', 'v', 'a', 'l', 'u', 'e', '5', ':', '&', 'V', 'e', 'c', '<', 'u', '1', '6', '>', '"']] ['v', 'a', 'l', 'u', 'e', '5'] tVec16 ['v', 'a', 'l', 'u', 'e', '5'] (.nums []) =
    some [(['v', 'a', 'l', 'u', 'e', '5'], ['O', 'p', 't', 'i', 'o', 'n', '<', '&', 'V', 'e', 'c', '<', 'u', '1', '6', '>', '>'], some (.present (.nums [])))] := by decide +kernel
/-! The getters 6 to 10 are not called in the test. -/
example : got [.prop "get" ['"', 'v', 'a', 'l', 'u', 'e', '6', ':', 'V', 'e', 'c', '<', 'u', '3', '2', '>', '"']] ['v', 'a', 'l', 'u', 'e', '6'] tVec16 ['v', 'a', 'l', 'u', 'e', '6'] (.nums [7]) =
    some [(['v', 'a', 'l', 'u', 'e', '6'], ['V', 'e', 'c', '<', 'u', '3', '2', '>'], some (.nums [7]))] := by decide +kernel
example : got [.prop "get_option" ['"', 'v', 'a', 'l', 'u', 'e', '7', ':', 'V', 'e', 'c', '<', 'u', '3', '2', '>', '"']] ['v', 'a', 'l', 'u', 'e', '7'] tVec16 ['v', 'a', 'l', 'u', 'e', '7'] (.nums [7]) =
    some [(['v', 'a', 'l', 'u', 'e', '7'], ['O', 'p', 't', 'i', 'o', 'n', '<', 'V', 'e', 'c', '<', 'u', '3', '2', '>', '>'], some (.present (.nums [7])))] := by decide +kernel
example : got [.prop "get_option" ['"', 'v', 'a', 'l', 'u', 'e', '8', ':', 'V', 'e', 'c', '<', 'u', '3', '2', '>', '"']] ['v', 'a', 'l', 'u', 'e', '8'] tOptVec16 ['v', 'a', 'l', 'u', 'e', '8'] .absent =
    some [(['v', 'a', 'l', 'u', 'e', '8'], ['O', 'p', 't', 'i', 'o', 'n', '<', 'V', 'e', 'c', '<', 'u', '3', '2', '>', '>'], some .absent)] := by decide +kernel
example : got [.prop "get_option" ['"', 'v', 'a', 'l', 'u', 'e', '9', ':', '&', 'V', 'e', 'c', '<', 'u', '1', '6', '>', '"']] ['v', 'a', 'l', 'u', 'e', '9'] tOptVec16 ['v', 'a', 'l', 'u', 'e', '9'] (.present (.nums [7])) =
    some [(['v', 'a', 'l', 'u', 'e', '9'], ['O', 'p', 't', 'i', 'o', 'n', '<', '&', 'V', 'e', 'c', '<', 'u', '1', '6', '>', '>'], some (.present (.nums [7])))] := by decide +kernel
example : got [.prop "get_option" ['"', 'v', 'a', 'l', 'u', 'e', '1', '0', ':', 'V', 'e', 'c', '<', 'u', '1', '6', '>', '"']] ['v', 'a', 'l', 'u', 'e', '1', '0'] tOptVec16 ['v', 'a', 'l', 'u', 'e', '1', '0'] (.present (.nums [7])) =
    some [(['v', 'a', 'l', 'u', 'e', '1', '0'], ['O', 'p', 't', 'i', 'o', 'n', '<', 'V', 'e', 'c', '<', 'u', '1', '6', '>', '>'], some (.present (.nums [7])))] := by decide +kernel
example : got [.prop "get" ['"', 'v', 'a', 'l', 'u', 'e', ':', 'V', 'e', 'c', '<', 'u', '1', '6', '>', '"']] ['v', 'a', 'l', 'u', 'e'] [['u', '8']] ['v', 'a', 'l', 'u', 'e'] (.num 0) =
    some [(['v', 'a', 'l', 'u', 'e'], ['V', 'e', 'c', '<', 'u', '1', '6', '>'], some (.nums [0]))] := by decide +kernel

/-! ## tests/test_enum.rs -/

/-- `Read { value }` and `Write { value, data }`, all with `get_option`. -/
def readWrite : List GVariant :=
  [{ fields := [({ getOption := true }, ['v', 'a', 'l', 'u', 'e'], tokensText [['u', '8']])] },
   { fields := [({ getOption := true }, ['v', 'a', 'l', 'u', 'e'], tokensText [['u', '8']]),
                ({ getOption := true }, ['d', 'a', 't', 'a'], tokensText [['u', '1', '6']])] }]

def valueData (p : Text) : Option GVal :=
  if p = ['v', 'a', 'l', 'u', 'e'] then some (.num 1) else if p = ['d', 'a', 't', 'a'] then some (.num 2) else none

example : enumRun some (fun _ => none) valueData readWrite ['v', 'a', 'l', 'u', 'e'] 0 = some (.present (.num 1)) ∧
    enumRun some (fun _ => none) valueData readWrite ['d', 'a', 't', 'a'] 0 = some .absent ∧
    enumRun some (fun _ => none) valueData readWrite ['v', 'a', 'l', 'u', 'e'] 1 = some (.present (.num 1)) ∧
    enumRun some (fun _ => none) valueData readWrite ['d', 'a', 't', 'a'] 1 = some (.present (.num 2)) := by decide +kernel

/-! ## tests/test_struct_enum.rs -/

/-- `#[jget(get = "body.get_value():Option<u8>, body.get_data():Option<u16>")]`: a getter that calls one of the field. -/
def bodyGetters (i : Nat) : Option (List (Text × Option GVal)) :=
  (GetAttrs.parse [.prop "get" ['"', 'b', 'o', 'd', 'y', '.', 'g', 'e', 't', '_', 'v', 'a', 'l', 'u', 'e', '(', ')', ':', 'O', 'p', 't', 'i', 'o', 'n', '<', 'u', '8', '>', ',', ' ', 'b', 'o', 'd', 'y', '.', 'g', 'e', 't', '_', 'd', 'a', 't', 'a', '(', ')', ':', 'O', 'p', 't', 'i', 'o', 'n', '<', 'u', '1', '6', '>', '"']]).map fun a =>
    (fieldGetters a ['b', 'o', 'd', 'y'] (tokensText [['S', 'i', 'm', 'p', 'l', 'e', 'E', 'n', 'u', 'm', 'E', 'x', 'a', 'm', 'p', 'l', 'e']])).map fun g => (g.name, g.run some fun p =>
      if p = ['b', 'o', 'd', 'y', '.', 'g', 'e', 't', '_', 'v', 'a', 'l', 'u', 'e', '(', ')'] then enumRun some (fun _ => none) valueData readWrite ['v', 'a', 'l', 'u', 'e'] i
      else if p = ['b', 'o', 'd', 'y', '.', 'g', 'e', 't', '_', 'd', 'a', 't', 'a', '(', ')'] then enumRun some (fun _ => none) valueData readWrite ['d', 'a', 't', 'a'] i else none)

example : bodyGetters 0 = some [(['v', 'a', 'l', 'u', 'e'], some (.present (.num 1))), (['d', 'a', 't', 'a'], some .absent)] ∧
    bodyGetters 1 = some [(['v', 'a', 'l', 'u', 'e'], some (.present (.num 1))), (['d', 'a', 't', 'a'], some (.present (.num 2)))] := by
  decide +kernel

/-! ## tests/test_enum_struct.rs and tests/test_enum_struct2.rs -/

/-- Tuple variants with these attributes. -/
def tupleEnum (items : List (List AttrItem)) : List GVariant :=
  items.map fun i => { attrs := (GetAttrs.parse i).getD {} }

def enumStruct : List GVariant := tupleEnum
  [[.prop "get_option" ['"', 'v', 'a', 'l', 'u', 'e', ':', 'O', 'p', 't', 'i', 'o', 'n', '<', 'u', '1', '6', '>', '"']],
   [.prop "get_option" ['"', 'v', 'a', 'l', 'u', 'e', ':', 'O', 'p', 't', 'i', 'o', 'n', '<', 'u', '1', '6', '>', ',', ' ', 'd', 'a', 't', 'a', ':', 'O', 'p', 't', 'i', 'o', 'n', '<', 'u', '1', '6', '>', ',', ' ', 'g', 'e', 't', '_', 'o', 't', 'h', 'e', 'r', '(', ')', ':', 'O', 'p', 't', 'i', 'o', 'n', '<', 'S', 't', 'r', 'i', 'n', 'g', '>', '"']]]

def innerStruct (p : Text) : Option GVal :=
  if p = ['g', 'e', 't', '_', 'o', 't', 'h', 'e', 'r', '(', ')'] then some (.other ['1', '2', '3']) else valueData p

example : enumRun some innerStruct (fun _ => none) enumStruct ['v', 'a', 'l', 'u', 'e'] 1 = some (.present (.num 1)) ∧
    enumRun some innerStruct (fun _ => none) enumStruct ['d', 'a', 't', 'a'] 1 = some (.present (.num 2)) ∧
    enumRun some innerStruct (fun _ => none) enumStruct ['o', 't', 'h', 'e', 'r'] 1 = some (.present (.other ['1', '2', '3'])) ∧
    enumHead enumStruct ['o', 't', 'h', 'e', 'r'] = some (['O', 'p', 't', 'i', 'o', 'n', '<', 'S', 't', 'r', 'i', 'n', 'g', '>'], true) := by decide +kernel

def enumStruct2 : List GVariant := tupleEnum
  [[.prop "get" ['"', 'v', 'a', 'l', 'u', 'e', ':', 'u', '1', '6', '"']], [.prop "get" ['"', 'v', 'a', 'l', 'u', 'e', ':', 'u', '1', '6', '"'], .prop "get_option" ['"', 'd', 'a', 't', 'a', ':', 'O', 'p', 't', 'i', 'o', 'n', '<', 'u', '1', '6', '>', '"']]]

example : enumRun some innerStruct (fun _ => none) enumStruct2 ['v', 'a', 'l', 'u', 'e'] 1 = some (.num 1) ∧
    enumRun some innerStruct (fun _ => none) enumStruct2 ['d', 'a', 't', 'a'] 1 = some (.present (.num 2)) ∧
    enumHead enumStruct2 ['v', 'a', 'l', 'u', 'e'] = some (['u', '1', '6'], false) := by decide +kernel

end JBytes.Vectors
