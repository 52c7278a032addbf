import Verif.Model.Py
import Verif.Model.Text

/-!
# Model of `ModelBuilder.write_module`

The files of the working directory are a dictionary from names to texts.  The rendered code is a parameter here (it is the subject
of `Model/Builder.lean`, `Model/FDModel.lean` and `Model/Manifold.lean`).

Simplification: `str.lower` is modelled for ASCII letters; other characters are kept (Python changes other cased letters as well).
-/

set_option autoImplicit false

namespace Sympkf.Write

open Text

/-- model_builder.py 120-134: the part of a builder that `write_module` uses: the name of the PDE system, the argument `class_name`,
the rendered code (`code`, 282-286) and the licence (113). -/
structure Builder where
  systemName : Str := []
  given : Option Str := none
  code : Str
  licence : Str := []

/-- model_builder.py 116 `_default_name`. -/
def defaultName : Str := "NumModel".toList

/-- model_builder.py 127-133: the name of the class. -/
def Builder.className (b : Builder) : Str :=
  match b.given with
  | some n => n
  | none => if b.systemName = [] then defaultName else b.systemName

/-- `str.lower`. -/
def lower (s : Str) : Str := s.map Char.toLower

/-- model_builder.py 326: `python_module`. -/
def Builder.module (b : Builder) : Str := lower b.className

/-- model_builder.py 327: `python_file`. -/
def Builder.file (b : Builder) : Str := b.module ++ ".py".toList

/-- model_builder.py 328-330: `open(.., 'w')` empties the file, then the text is written character by character. -/
def writeText (disk : Dict Str Str) (path text : Str) : Dict Str Str :=
  text.foldl (fun d c => d.set path ((d.get? path).getD [] ++ [c])) (disk.set path [])

/-- model_builder.py 321-334 `write_module`: the directory afterwards. -/
def writeModule (disk : Dict Str Str) (b : Builder) : Dict Str Str := writeText disk b.file (b.licence ++ b.code)

/-- The directory after the modules of the builders are written one after the other. -/
def writeAll (disk : Dict Str Str) (bs : List Builder) : Dict Str Str := bs.foldl writeModule disk

end Sympkf.Write
