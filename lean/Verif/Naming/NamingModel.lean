/-!
# Model of table paths, protopath ids and naming policies

`arolla/naming/table.{h,cc}`, `arolla/naming/protopath_id.cc`, `arolla/naming/policy.cc`.

Strings are lists of characters.  Error messages are not modelled.  `TablePath` and `ColumnPath` hold the same data, a
list of segments; the operations of both are modelled on this list.
-/

namespace Verif.Naming

/-- `PathSegment` — table.h:66-97; equality compares both fields (table.h:99-102). -/
structure Segment where
  name : List Char
  isIndex : Bool
  deriving DecidableEq, Repr

/-- `kIndexMarker`, `[:]` — table.h:41. -/
def kIndexMarker : List Char := ['[', ':', ']']

/-- `kExtensionFieldPrefix`, `Ext::` — table.h:37. -/
def kExtensionFieldPrefix : List Char := ['E', 'x', 't', ':', ':']

/-- `kSizeColumnName`, `@size` — table.h:35. -/
def kSizeColumnName : List Char := ['@', 's', 'i', 'z', 'e']

/-- The loop of `FormatSegments` with the string built so far — table.cc:36-47. -/
def formatLoop (showMarkers : Bool) : List Segment → List Char → List Char
  | [], ret => ret
  | s :: rest, ret =>
    let ret := ret ++ ['/']
    let ret := ret ++ s.name
    let ret := if showMarkers && s.isIndex then ret ++ kIndexMarker else ret
    formatLoop showMarkers rest ret

/-- `FormatSegments`, `FullName` — table.cc:36-47, 87-93. -/
def fullName (p : List Segment) (showMarkers : Bool) : List Char := formatLoop showMarkers p []

/-- `TablePath::Child` with a path: one segment after the other — table.h:131-154. -/
def child : List Segment → List Segment → List Segment
  | p, [] => p
  | p, s :: rest => child (p ++ [s]) rest

/-- `TablePath::Column` with a column path — table.cc:66-76. -/
def column (p c : List Segment) : List Segment := p ++ c

/-- `TablePath::Size` with a name — table.cc:78-81. -/
def sizeOfName (p : List Segment) (name : List Char) : List Segment :=
  if name = [] then column p [⟨kSizeColumnName, false⟩]
  else column (child p [⟨name, false⟩]) [⟨kSizeColumnName, false⟩]

/-- `TablePath::Size` with a path — table.cc:83-85. -/
def sizeOfPath (p c : List Segment) : List Segment := column (child p c) [⟨kSizeColumnName, false⟩]

/-- The loop `while (!segments.empty() && !segments.back().IsIndex()) pop_back()`, on the reversed list —
table.cc:115-117, 123-125. -/
def popLoop : List Segment → List Segment
  | [] => []
  | s :: rest => if s.isIndex then s :: rest else popLoop rest

/-- `TablePath::ParentIndexPath` — table.cc:105-119. -/
def tableParent (p : List Segment) : Option (List Segment) :=
  match p.reverse with
  | [] => none
  | s :: rest => some (popLoop (if s.isIndex then rest else s :: rest)).reverse

/-- `ColumnPath::ParentIndexPath` — table.cc:121-127. -/
def columnParent (p : List Segment) : List Segment := (popLoop p.reverse).reverse

/-- `RemovePrefixSegments` — table.cc:131-142; `none` is the error; `subspan(0, n)` stops at the end of the span. -/
def removePrefix (p pre : List Segment) : Option (List Segment) :=
  if p.take pre.length ≠ pre then none else some (p.drop pre.length)

/-- `FormatAsProtopathId` — protopath_id.cc:36-42. -/
def formatId : List Segment → List Char
  | [] => []
  | s :: rest => '/' :: (s.name ++ ((if s.isIndex then kIndexMarker else []) ++ formatId rest))

/-- `absl::ConsumePrefix`: the rest of the string if it begins with the prefix. -/
def consumePrefix (pre s : List Char) : Option (List Char) :=
  if pre.isPrefixOf s then some (s.drop pre.length) else none

/-- `ParsePathSegment` — protopath_id.cc:44-47. -/
def parseSegment (s : List Char) : Segment :=
  if kIndexMarker.isSuffixOf s then ⟨s.take (s.length - kIndexMarker.length), true⟩ else ⟨s, false⟩

/-- The loop of `ParseProtopathId` — protopath_id.cc:62-70; `none` if the fuel does not suffice. -/
def parseLoop : Nat → List Char → List Segment → Option (List Segment)
  | _, [], parsed => some parsed
  | 0, _ :: _, _ => none
  | fuel + 1, c :: s, parsed =>
    match (c :: s).findIdx? (· == '/') with
    | none => some (parsed ++ [parseSegment (c :: s)])
    | some n => parseLoop fuel ((c :: s).drop (n + 1)) (parsed ++ [parseSegment ((c :: s).take n)])

/-- `ParseProtopathId` — protopath_id.cc:49-72; the inner `none` is the error. -/
def parseId (s : List Char) : Option (Option (List Segment)) :=
  match s with
  | [] => some (some [])
  | c :: s => if c ≠ '/' then some none else (parseLoop s.length s []).map some

/-! ## Policies -/

/-- `absl::StrReplaceAll` with one replacement of a character. -/
def replaceChar (c : Char) (by_ : List Char) : List Char → List Char
  | [] => []
  | d :: s => (if d = c then by_ else [d]) ++ replaceChar c by_ s

/-- `absl::StrJoin`. -/
def join (sep : List Char) : List (List Char) → List Char
  | [] => []
  | [s] => s
  | s :: t :: rest => s ++ (sep ++ join sep (t :: rest))

/-- `DoubleUnderscorePolicyImpl::MangleExtensionFieldName` — policy.cc:92-99. -/
def mangle (name : List Char) : List Char :=
  match consumePrefix kExtensionFieldPrefix name with
  | some rest => replaceChar '.' ['_'] (rest.map Char.toLower)
  | none => name

/-- `DoubleUnderscorePolicyImpl::Format` — policy.cc:101-108. -/
def doubleUnderscore (p : List Segment) : List Char :=
  join ['_', '_'] (p.map (fun s => mangle (replaceChar '/' ['_', '_'] s.name)))

/-- `SingleUnderscorePolicyImpl::Reformat` of the full name — policy.cc:115-126. -/
def singleUnderscore (p : List Segment) : List Char :=
  match fullName p false with
  | [] => []
  | _ :: name => replaceChar '/' ['_'] name

/-- `name.substr(name.find_last_of('/') + 1)`: with `npos + 1 = 0`. -/
def afterLastSlash (name : List Char) : List Char :=
  match name.reverse.findIdx? (· == '/') with
  | none => name
  | some n => name.drop (name.length - n)

/-- `LeafOnlyPolicyImpl::Reformat` of the full name — policy.cc:133-145. -/
def leafOnly (p : List Segment) : List Char :=
  let name := fullName p false
  if kSizeColumnName.isSuffixOf name then name else afterLastSlash name

/-- The callback in `GoogleSQLPolicyImpl::Format` — policy.cc:174-181. -/
def sqlField (s : Segment) : List Char :=
  match consumePrefix kExtensionFieldPrefix s.name with
  | some rest => '(' :: (rest ++ [')'])
  | none => s.name

/-- `GoogleSQLPolicyImpl::Format` — policy.cc:172-182. -/
def googleSql (p : List Segment) : List Char := join ['.'] (p.map sqlField)

/-- The policies — policy.cc:187-215. -/
inductive Policy
  | default_ | doubleUnderscore | singleUnderscore | leafOnly | protopathId | googleSql
  deriving DecidableEq

/-- `Policy::Name` — policy.cc:54 with the names in policy.h:50-83. -/
def Policy.name : Policy → String
  | .default_ => "default"
  | .doubleUnderscore => "double_underscore"
  | .singleUnderscore => "single_underscore"
  | .leafOnly => "leaf_only"
  | .protopathId => "protopath_id"
  | .googleSql => "googlesql"

/-- `Policy::Format` — policy.cc:56-62, 66-183. -/
def Policy.format : Policy → List Segment → List Char
  | .default_, p => fullName p false
  | .doubleUnderscore, p => Naming.doubleUnderscore p
  | .singleUnderscore, p => Naming.singleUnderscore p
  | .leafOnly, p => Naming.leafOnly p
  | .protopathId, p => formatId p
  | .googleSql, p => Naming.googleSql p

/-- `GetPolicy` — policy.cc:217-238. -/
def getPolicy (name : String) : Option Policy :=
  if name = "default" then some .default_
  else if name = "double_underscore" then some .doubleUnderscore
  else if name = "single_underscore" then some .singleUnderscore
  else if name = "leaf_only" then some .leafOnly
  else if name = "protopath_id" then some .protopathId
  else if name = "googlesql" then some .googleSql
  else none

end Verif.Naming
