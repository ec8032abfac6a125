import Verif.Agg.Emit
import Verif.Agg.Geometric
import Verif.Agg.GridComplete
import Verif.Agg.GridModel
import Verif.Agg.GridProps
import Verif.Agg.GridSize
import Verif.Agg.GridWalk
import Verif.Agg.Ids
import Verif.Agg.Instance
import Verif.Agg.Refine
import Verif.Agg.Simple
import Verif.Agg.Voxel
import Verif.BBox.Model
import Verif.BBox.Props
import Verif.BBox.Slab
import Verif.BBox.SlabLemmas
import Verif.BBox.SlabProps
import Verif.BVH.BuildLemmas
import Verif.BVH.BuildProps
import Verif.BVH.BuildProps2
import Verif.BVH.Depth
import Verif.BVH.Flatten
import Verif.BVH.MixScene
import Verif.BVH.Model
import Verif.BVH.Rounded
import Verif.BVH.TraverseLemmas
import Verif.BVH.TraverseProps
import Verif.BVH.TriScene
import Verif.Base.V3
import Verif.Camera.Camera
import Verif.Camera.Rounded
import Verif.Dist.Model
import Verif.Dist.Props
import Verif.Film.Average
import Verif.Film.Conc
import Verif.Film.Image
import Verif.Film.Lemmas
import Verif.Film.Model
import Verif.Film.Props
import Verif.Film.Rounded
import Verif.Filter.Filters
import Verif.Filter.Rounded
import Verif.Geom.DiffGeom
import Verif.Geom.Kinds
import Verif.Geom.Model
import Verif.Geom.Props
import Verif.Geom.Rays
import Verif.Geom.Rounded
import Verif.Integrator.Direct
import Verif.Integrator.MatteRounded
import Verif.Integrator.Path
import Verif.Integrator.Specular
import Verif.Integrator.SphereLight
import Verif.Integrator.TriLight
import Verif.Integrator.Whitted
import Verif.Interface.Api
import Verif.Interface.Param
import Verif.Interface.System
import Verif.Light.Area
import Verif.Light.Files
import Verif.Light.Light
import Verif.Light.ShadowRounded
import Verif.Light.SpotRounded
import Verif.MC.Concentric
import Verif.MC.ConcentricLaw
import Verif.MC.HgRounded
import Verif.MC.Law
import Verif.MC.Model
import Verif.MC.Phase
import Verif.MC.Props
import Verif.MC.Rounded
import Verif.Material.Material
import Verif.Material.MeasuredFile
import Verif.Num.F
import Verif.Num.Grid
import Verif.Num.Majorant
import Verif.Num.Ranges
import Verif.Num.Round
import Verif.Reflection.Aniso
import Verif.Reflection.BlinnRounded
import Verif.Reflection.Bsdf
import Verif.Reflection.Diffuse
import Verif.Reflection.DiffuseRounded
import Verif.Reflection.Fresnel
import Verif.Reflection.FresnelRounded
import Verif.Reflection.Measured
import Verif.Reflection.Microfacet
import Verif.Reflection.Rho
import Verif.Render.FirstMixed
import Verif.Render.FirstRounded
import Verif.Render.Full
import Verif.Render.Linear
import Verif.Render.MatteMixed
import Verif.Render.MatteRounded
import Verif.Render.Mirrors
import Verif.Render.Picture
import Verif.Render.Recursion
import Verif.Render.Rounded
import Verif.Render.Task
import Verif.Sampler.Layout
import Verif.Sampler.Model
import Verif.Sampler.Requests
import Verif.Sampler.Rounded
import Verif.Sampler.RoundedSub
import Verif.Sampler.Scan
import Verif.Sampler.Strata
import Verif.Sampler.Sub
import Verif.Sampler.Unbiased
import Verif.Scene.Scene
import Verif.Shape.CylRounded
import Verif.Shape.Cylinder
import Verif.Shape.Disk
import Verif.Shape.DiskRounded
import Verif.Shape.LoopCreate
import Verif.Shape.LoopLevels
import Verif.Shape.LoopLimit
import Verif.Shape.LoopOut
import Verif.Shape.LoopPos
import Verif.Shape.LoopTopo
import Verif.Shape.LoopWalk
import Verif.Shape.LoopWeights
import Verif.Shape.Mesh
import Verif.Shape.MeshBound
import Verif.Shape.SelfHit
import Verif.Shape.SelfQuadric
import Verif.Shape.Shading
import Verif.Shape.Sphere
import Verif.Shape.SphereGeo
import Verif.Shape.SphereParts
import Verif.Shape.SphereRounded
import Verif.Shape.SphereSample
import Verif.Shape.TriLaw
import Verif.Shape.TriRounded
import Verif.Shape.Triangle
import Verif.Spectral.Average
import Verif.Spectral.Rgb
import Verif.Spectral.Tables
import Verif.Texture.MipMap
import Verif.Texture.MipRounded
import Verif.Texture.Noise
import Verif.Texture.NoiseRounded
import Verif.Texture.Resample
import Verif.Texture.Tex
import Verif.Util.ImageIO
import Verif.Util.Ints
import Verif.Volume.Bound
import Verif.Volume.MarchRounded
import Verif.Volume.PhaseRounded
import Verif.Volume.PhaseRounded2
import Verif.Volume.Volume
import Verif.Xform.AnimProps
import Verif.Xform.Interp
import Verif.Xform.Lemmas
import Verif.Xform.Model
import Verif.Xform.Polar
import Verif.Xform.Props
import Verif.Xform.Quat
import Verif.Xform.QuatProps
import Verif.Xform.QuatRounded
import Verif.Xform.Rounded
