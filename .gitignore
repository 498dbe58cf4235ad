lean/lake-manifest.json
__pycache__
