import Verif.Model.Disk
/-
Model of what an image tells of the resolutions of its tracks: src/diskimage.rs:736-753.
-/
namespace Fox
namespace Disk

/-- `resolution` (src/diskimage.rs:736-740).  The order, that of a hash set, is not told; the model takes the order of the enumeration. -/
def resolutions (d : Disk) : List Resolution := [.metaSector, .bitStream, .fluxStream].filter d.res.has

/-- `can_visualize` (src/diskimage.rs:749-753). -/
def canVisualize (d : Disk) : Bool := d.res.has .fluxStream || d.res.has .bitStream

end Disk
end Fox
