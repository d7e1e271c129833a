import Verif.Hir.Syntax

/-! # Modules and interfaces, with the names and the visibility of their definitions -/

namespace Verif.Names

open Verif.Hir

/-- `hir::ir::TypeDefinition` (`lib/hir/src/ir/type_definition.rs`). -/
structure TypeDefinition where
  name : String
  original : String
  fields : List RecordField
  isOpen : Bool
  isPublic : Bool
  external : Bool

/-- `hir::ir::TypeAlias` (`lib/hir/src/ir/type_alias.rs`). -/
structure TypeAlias where
  name : String
  original : String
  type : Ty
  isPublic : Bool
  external : Bool

/-- `hir::ir::ForeignDeclaration` (`lib/hir/src/ir/foreign_declaration.rs`), without the calling
convention. -/
structure ForeignDeclaration where
  name : String
  foreign : String
  type : Ty

/-- `hir::ir::FunctionDeclaration` (`lib/hir/src/ir/function_declaration.rs`). -/
structure FunctionDeclaration where
  name : String
  type : Ty

/-- `hir::ir::FunctionDefinition` (`lib/hir/src/ir/function_definition.rs`) with its `Lambda`; without the
configuration of foreign exports. -/
structure FunctionDefinition where
  name : String
  original : String
  params : List (String × Ty)
  result : Ty
  body : Expr
  isPublic : Bool

/-- `hir::ir::Module` (`lib/hir/src/ir/module.rs:8-15`). -/
structure Module where
  types : List TypeDefinition
  aliases : List TypeAlias
  foreigns : List ForeignDeclaration
  declarations : List FunctionDeclaration
  definitions : List FunctionDefinition

/-- `interface::TypeDefinition` (`lib/interface/src/type_definition.rs`). -/
structure InterfaceType where
  name : String
  original : String
  fields : List RecordField
  isOpen : Bool
  isPublic : Bool

/-- `interface::TypeAlias` (`lib/interface/src/type_alias.rs`). -/
structure InterfaceAlias where
  name : String
  original : String
  type : Ty
  isPublic : Bool

/-- `interface::FunctionDeclaration` (`lib/interface/src/function_declaration.rs`). -/
structure InterfaceFunction where
  name : String
  original : String
  type : Ty

/-- `interface::Module` (`lib/interface/src/module.rs`). -/
structure Interface where
  types : List InterfaceType
  aliases : List InterfaceAlias
  functions : List InterfaceFunction

/-- `ImportedModule` (`lib/ast-hir/src/imported_module.rs`): the interface, the prefix it is imported under
and the names imported without the prefix. -/
structure Import where
  interface : Interface
  pre : String
  unqualified : List String

end Verif.Names
