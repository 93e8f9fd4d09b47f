import Verif.Model.Detect
/-
Model of `DiskImageFileFormat::resolution`.
-/
namespace Fox

/-- `DiskImageFileFormat::resolution` (src/types/enums.rs:401-426). -/
def Detect.Format.resolution : Detect.Format → Resolution
  | .raw => .metaSector
  | .imd => .metaSector
  | .psi => .metaSector
  | .pri => .bitStream
  | .mfm => .bitStream
  | .td0 => .metaSector
  | .kryo => .fluxStream
  | .hfe => .bitStream
  | .f86 => .bitStream
  | .tc => .bitStream
  | .scp => .fluxStream
  | .pfi => .fluxStream
  | .mfi => .fluxStream
  | .ipf => .bitStream
  | .moof => .bitStream
  | .woz => .bitStream

end Fox
