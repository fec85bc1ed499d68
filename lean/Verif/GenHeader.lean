/-!
# Headers of the generated impls

The text in front of the body of a derived method: the trait and its
arguments, the generic parameter of the method, and the type of the reader.

Models `/repo/derive/src/lib.rs:54-198` (what is handed to the generators),
`/repo/derive/src/jbytes/derive_struct.rs:107-162,207-217` and
`/repo/derive/src/jbytes/derive_enum.rs:29-82,367-377` (`impl_for`,
`generate_fn`, `with_generic_deps`, `with_arg`).

Trusted: the printing of generic parameters by `syn` (`Generics::to_tokens`,
`syn-2 src/generics.rs`: nothing at all without parameters, otherwise the
parameters between angle brackets, with the bounds, the defaults and the last
comma as they were written), and `virtue`'s `impl_for`, which repeats the
parameters of the type on the impl and on the type.
-/

namespace JBytes

/-- A token of a list of generic parameters. -/
inductive GTok where
  | life (name : String)
  | ident (name : String)
  | punct (c : Char)
  deriving DecidableEq, Repr

/-- A generic parameter of the type that carries the derive.  Bounds and
defaults are any tokens. -/
inductive GParam where
  | life (name : String) (bounds : List GTok)
  | type (name : String) (bounds dflt : List GTok)
  | const (name : String) (ty dflt : List GTok)
  deriving DecidableEq, Repr

/-- The generic parameters of a type: the parameters and whether a comma
follows the last one. -/
structure Generics where
  params : List GParam
  trailing : Bool
  deriving DecidableEq, Repr

/-- `: bounds`, if there are any (`syn`, see above). -/
def withBounds (b : List GTok) : List GTok :=
  if b = [] then [] else .punct ':' :: b

/-- `= default`, if there is one. -/
def withDefault (d : List GTok) : List GTok :=
  if d = [] then [] else .punct '=' :: d

/-- The tokens of one parameter. -/
def GParam.tokens : GParam → List GTok
  | .life n b => .life n :: withBounds b
  | .type n b d => .ident n :: (withBounds b ++ withDefault d)
  | .const n t d => .ident "const" :: .ident n :: .punct ':' :: (t ++ withDefault d)

/-- Parameters with commas between them. -/
def joinParams : List GParam → List GTok
  | [] => []
  | [p] => p.tokens
  | p :: q :: ps => p.tokens ++ .punct ',' :: joinParams (q :: ps)

/-- `derive_input.generics.to_token_stream()` (`lib.rs:93`). -/
def Generics.tokens (g : Generics) : List GTok :=
  if g.params = [] then []
  else .punct '<' :: (joinParams g.params ++
    (if g.trailing then [.punct ','] else []) ++ [.punct '>'])

/-- `trim_start_matches('<').trim_end_matches('>')` (`derive_struct.rs:141`,
`derive_enum.rs:63`).  On tokens: the spaces of the text do not matter here,
for a bracket that is left over is never part of a lifetime. -/
def trimBrackets (ts : List GTok) : List GTok :=
  ((ts.dropWhile (· == .punct '<')).reverse.dropWhile (· == .punct '>')).reverse

/-- The four derives: the two encoders have the same header (`lib.rs:129-198`). -/
inductive DeriveKind where
  | decode
  | borrowDecode
  | encode
  deriving DecidableEq, Repr

/-- What the header says. -/
structure ImplHeader where
  /-- lifetimes declared on the impl besides the parameters of the type -/
  fresh : List String
  /-- tokens after the name of the trait -/
  traitArgs : List GTok
  /-- generic parameter of the method -/
  method : String
  /-- tokens between `&` and the name of that parameter, in the type of the
  first argument (`mut` for an encoder) -/
  refArgs : List GTok
  deriving DecidableEq, Repr

/-- The header that is generated.  `decode`: `derive_struct.rs:107-114`,
`derive_enum.rs:29-36`; `borrowDecode`: `derive_struct.rs:128-150`,
`derive_enum.rs:50-72`, with `lifetimes` being `None` for an empty text
(`lib.rs:112,119`); `encode`: `derive_struct.rs:205-213`,
`derive_enum.rs:365-373`. -/
def implHeader (k : DeriveKind) (g : Generics) : ImplHeader :=
  match k with
  | .decode => ⟨[], [], "I", []⟩
  | .borrowDecode =>
    if g.tokens = [] then
      ⟨["de"], [.punct '<', .life "de", .punct '>'], "I", [.life "de"]⟩
    else
      ⟨[], g.tokens, "I", trimBrackets g.tokens⟩
  | .encode => ⟨[], [], "B", [.ident "mut"]⟩

end JBytes
