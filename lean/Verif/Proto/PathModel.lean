import Verif.Proto.ProtoModel

/-!
# Protopaths

Model of `arolla/io/proto/proto_input_loader.cc`. Strings are lists of characters. The lookup of
fields by name (`Descriptor::FindFieldByName`) and `absl::SimpleAtoi` are parameters.
-/

namespace Verif.Proto

/-- The suffix `@size`. -/
def atSize : List Char := ['@', 's', 'i', 'z', 'e']

/-- `absl::ConsumeSuffix`: the rest, if there is this suffix. -/
def consumeSuffix (suffix s : List Char) : Option (List Char) :=
  if s.drop (s.length - suffix.length) = suffix then some (s.take (s.length - suffix.length))
  else none

/-- `absl::StrSplit`: the pieces between the delimiters. -/
def splitBy (p : Char → Bool) : List Char → List (List Char)
  | [] => [[]]
  | c :: cs =>
    if p c then [] :: splitBy p cs
    else match splitBy p cs with
      | [] => [[c]]
      | w :: ws => (c :: w) :: ws

/-- A bracket. -/
def isBracket (c : Char) : Bool := c == '[' || c == ']'

/-- `absl::StrFormat("%s[%d]", field_name, idx)` (proto_input_loader.cc:114). -/
def formatIndex (name : List Char) (idx : Nat) : List Char :=
  name ++ '[' :: (Nat.toDigits 10 idx ++ [']'])

/-- The part of `ParseProtopathElement` for elements with brackets
(proto_input_loader.cc:98-117). -/
def parseIndexed (atoi : List Char → Option Nat) (e : List Char) : Option (List Char × Access) :=
  match (splitBy isBracket e).filter (fun w => !w.isEmpty) with
  | [name, num] =>
    match atoi num with
    | none => none
    | some idx => if formatIndex name idx = e then some (name, .index idx) else none
  | _ => none

/-- `ParseProtopathElement` (proto_input_loader.cc:80-118). -/
def parseProtopathElement (atoi : List Char → Option Nat) (e : List Char) :
    Option (List Char × Access) :=
  match consumeSuffix atSize e with
  | some rest => if rest.any isBracket then none else some (rest, .size)
  | none => if e.any isBracket then parseIndexed atoi e else some (e, .regular)

/-- The message type in which the next field is looked up (proto_input_loader.cc:142-153). -/
def currentDescr (previous : Option Field) (descr : Nat) : Option Nat :=
  match previous with
  | none => some descr
  | some f => if f.type.cppType = .message then some f.messageType else none

/-- Plain access to a repeated field reads all elements (proto_input_loader.cc:167-170). -/
def adjustAccess (f : Field) (a : Access) : Access :=
  if f.repeated && a = .regular then .repeated else a

/-- The loop of `ParseProtopathToReader` (proto_input_loader.cc:139-174). -/
def resolve (find : Nat → List Char → Option Field) (atoi : List Char → Option Nat) (descr : Nat) :
    Option Field → List (List Char) → Option (List Field × List Access)
  | _, [] => some ([], [])
  | previous, e :: es =>
    (parseProtopathElement atoi e).bind fun (name, access) =>
      (currentDescr previous descr).bind fun d =>
        (find d name).bind fun f =>
          if f.type = .enum ∨ f.extension = true then none
          else (resolve find atoi descr (some f) es).map fun (fs, as) =>
            (f :: fs, adjustAccess f access :: as)

/-- A last element `@size` is appended to the element before it (proto_input_loader.cc:132-135). -/
def mergeSize (elements : List (List Char)) : List (List Char) :=
  if elements.getLast? = some atSize ∧ elements.length > 1 then
    elements.dropLast.dropLast ++ [(elements.dropLast.getLast?.getD []) ++ atSize]
  else elements

/-- The elements of a protopath (proto_input_loader.cc:123-135). -/
def pathElements (path : List Char) : Option (List (List Char)) :=
  match path with
  | '/' :: rest => some (mergeSize (splitBy (· == '/') rest))
  | _ => none

/-- `ParseProtopathToReader` (proto_input_loader.cc:120-184). -/
def parseProtopathToReader (find : Nat → List Char → Option Field)
    (atoi : List Char → Option Nat) (descr : Nat) (path : List Char) (s : StringFieldType) :
    Option Reader :=
  (pathElements path).bind fun es =>
    (resolve find atoi descr none es).bind fun (fields, infos) =>
      (fields.getLast?).bind fun last =>
        if last.type.cppType = .message ∧ infos.getLast? ≠ some .size then none
        else createReaderWithStringType fields infos s

end Verif.Proto
