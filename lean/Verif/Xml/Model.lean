import Verif.Render.Model
import Verif.Json.Model
/-!
# Model of the XML file of the string catalog

`write_xml` of `/repo/python/cib/gen_str_catalog.py` makes a tree of elements. Attributes are as they are
given to the library, which writes them so that a reader gets them back (environment); texts of elements
are as they are in the file, since the script replaces the function that writes them (`_escape_cdata`,
729-735). White space between elements (`et.indent`) is left out. `none` is an exception. Ids are not
negative.
-/
namespace Verif.Xml
open Verif.Symbols (Text natText intText)
open Verif.Render (xmlFormat element digitsOf padded)

/-- An element: its tag, its attributes, its text as it is in the file, its children. -/
inductive El where
  | mk (tag : Text) (attrs : List (Text × Text)) (text : Text) (kids : List El)

/-- `Message`: the fields that are written; 147-166, `enum_lookup`: 780. -/
structure Msg where
  text : Text
  args : List Text
  id : Nat
  lookup : Option (Nat × Nat)
deriving DecidableEq, Repr

/-- `Module`: 232-239. -/
structure Mod where
  text : Text
  id : Nat
deriving DecidableEq, Repr

/-- Enumerations with their numbers: `main`, 767-772. -/
def enumerated : Nat → List (Text × List (Text × Int)) → List (Text × Nat × List (Text × Int))
  | _, [] => []
  | i, e :: es => (e.1, i, e.2) :: enumerated (i + 1) es

/-- `serialize_guids`: 503-509. -/
def serializeGuids (guidId guidMask : Text) : El :=
  .mk t!"syst:Guids" [] [] [.mk t!"syst:Guid"
    [(t!"ID", t!"{" ++ guidId ++ t!"}"), (t!"Mask", t!"{" ++ guidMask ++ t!"}")] [] []]

/-- `serialize_enums`: 512-521. -/
def serializeEnums (enums : List (Text × Nat × List (Text × Int))) : El :=
  .mk t!"syst:EnumDefinition" [] [] (enums.map fun e =>
    .mk t!"syst:Enum" [(t!"Name", e.1), (t!"ID", natText e.2.1)] [] (e.2.2.map fun v =>
      .mk t!"syst:EnumEntry" [(t!"Value", intText v.2), (t!"Name", v.1)] [] []))

/-- `serialize_modules`: 524-530. -/
def serializeModules (modules : List Mod) : El :=
  .mk t!"syst:Modules" [] [] (modules.map fun m =>
    .mk t!"syst:Module" [(t!"ID", natText m.id)] (element m.text) [])

/-- `"0x%08X" % id`: 579. -/
def hexId (id : Nat) : Text := t!"0x" ++ padded false (digitsOf 'X' id) true 8

/-- One message: 576-593. -/
def serializeMessage (m : Msg) : Option El :=
  (xmlFormat m.text m.args).map fun f =>
    .mk t!"syst:Format" ([(t!"ID", hexId m.id), (t!"Mask", t!"0x0FFFFFFF")] ++
      match m.lookup with
      | none => []
      | some l => [(t!"EnumLookup", natText l.1 ++ t!":" ++ natText l.2)]) (element f) []

/-- `serialize_messages`: 572-593; the elements under `short_node` and `catalog_node`. -/
def serializeMessages : List Msg → List El × List El → Option (List El × List El)
  | [], r => some r
  | m :: ms, r => (serializeMessage m).bind fun e =>
    serializeMessages ms (if m.args.length = 0 then (r.1 ++ [e], r.2) else (r.1, r.2 ++ [e]))

/-- What is written besides messages, modules and enumerations. -/
structure Settings where
  clientName : Text
  version : Text
  guidId : Text
  guidMask : Text

/-- `write_xml`: 596-637. -/
def writeXml (s : Settings) (messages : List Msg) (modules : List Mod)
    (enums : List (Text × Nat × List (Text × Int))) : Option El :=
  (serializeMessages messages ([], [])).map fun r =>
    .mk t!"syst:Collateral"
      [(t!"xmlns:syst", t!"http://www.mipi.org/1.0/sys-t"),
       (t!"xmlns:xsi", t!"http://www.w3.org/2001/XMLSchema-instance"),
       (t!"xsi:schemaLocation", t!"http://www.mipi.org/1.0/sys-t https://www.mipi.org/schema/sys-t/sys-t_1-0.xsd")] []
      [.mk t!"syst:Client" [(t!"Name", s.clientName)] []
        [serializeGuids s.guidId s.guidMask, serializeEnums enums, serializeModules modules,
         .mk t!"syst:Short32" [] [] r.1, .mk t!"syst:Catalog32" [] [] r.2],
       .mk t!"syst:FwVersion" [(t!"FW_Version", s.version)] [] []]

end Verif.Xml
